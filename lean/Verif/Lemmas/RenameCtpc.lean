import Verif.Lemmas.Rename

/-!
# The constraint-based search commutes with renaming variables
-/

namespace PyCTBN
open Spec

/-- An outcome and a state, both renamed. -/
def renOut {α β σ τ : Type} (f : α → β) (h : σ → τ) (r : Py α × σ) : Py β × τ := (f <$> r.1, h r.2)

section
variable {ρ : Label → Label} (hρ : Function.Injective ρ)
include hρ

/-- The cache with renamed keys and sets. -/
abbrev renameCache (ρ : Label → Label) (c : Cache SetOfCims) : Cache SetOfCims := c.map (fun p => (p.1.map ρ, renameCims ρ p.2))

theorem sameSet_ren (a b : List Label) : sameSet (a.map ρ) (b.map ρ) = sameSet a b := by
  unfold sameSet
  simp only [List.all_map]
  congr 2 <;> funext l <;> exact decide_eq_decide.2 (mem_ren hρ)

theorem find_ren (c : Cache SetOfCims) (k : List Label) : Cache.find (renameCache ρ c) (k.map ρ) = (Cache.find c k).map (renameCims ρ) := by
  unfold Cache.find renameCache
  rw [List.find?_map]
  have : ((fun e : List Label × SetOfCims => sameSet e.1 (k.map ρ)) ∘ fun p : List Label × SetOfCims => (p.1.map ρ, renameCims ρ p.2))
      = fun e => sameSet e.1 k := by
    funext e
    exact sameSet_ren hρ _ _
  rw [this]
  cases List.find? (fun e : List Label × SetOfCims => sameSet e.1 k) c <;> rfl

omit hρ in
theorem put_ren (c : Cache SetOfCims) (k : List Label) (v : SetOfCims) :
    Cache.put (renameCache ρ c) (k.map ρ) (renameCims ρ v) = renameCache ρ (Cache.put c k v) := by
  unfold Cache.put renameCache
  simp

omit hρ in
theorem maskRow_mapRen {α β : Type} (f : α → β) (mask : List Bool) (l : List α) :
    SetOfCims.maskRow mask (l.map f) = (SetOfCims.maskRow mask l).map f := by
  unfold SetOfCims.maskRow
  rw [List.zip_map_left, List.filter_map, List.map_map, List.map_map]
  rfl

theorem mask_ren (E : CBEnv) (ls : List Label) :
    (renameEnv ρ E).struct.labels.map (fun l => decide (l ∈ ls.map ρ)) = E.struct.labels.map (fun l => decide (l ∈ ls)) := by
  show (E.struct.labels.map ρ).map _ = _
  rw [List.map_map]
  exact List.map_congr_left (fun l _ => decide_eq_decide.2 (mem_ren hρ))

theorem masked_ren {α : Type} (E : CBEnv) (arr : List α) (ls : List Label) : (renameEnv ρ E).masked arr (ls.map ρ) = E.masked arr ls := by
  unfold CBEnv.masked
  rw [mask_ren hρ]

theorem masked_ren' (E : CBEnv) (arr : List Label) (ls : List Label) : (renameEnv ρ E).masked (arr.map ρ) (ls.map ρ) = (E.masked arr ls).map ρ := by
  rw [masked_ren hρ]
  unfold CBEnv.masked
  rw [maskRow_mapRen]

theorem structure2_ren (E : CBEnv) (p child : Label) (S : List Label) :
    (renameEnv ρ E).structure2 (ρ p) (ρ child) (S.map ρ) = renameStruct ρ (E.structure2 p child S) := by
  unfold CBEnv.structure2
  have h : S.map ρ ++ [ρ child] ++ [ρ p] = (S ++ [child] ++ [p]).map ρ := by simp
  dsimp only
  rw [h]
  have h1 := masked_ren' hρ E E.struct.labels (S ++ [child] ++ [p])
  have h2 := masked_ren hρ E E.struct.indexes (S ++ [child] ++ [p])
  have h3 := masked_ren hρ E E.struct.vals (S ++ [child] ++ [p])
  have e1 : (renameEnv ρ E).struct.labels = E.struct.labels.map ρ := rfl
  have e2 : (renameEnv ρ E).struct.indexes = E.struct.indexes := rfl
  have e3 : (renameEnv ρ E).struct.vals = E.struct.vals := rfl
  rw [e1, e2, e3, h1, h2, h3]
  unfold renameStruct
  congr 1
  simp [renameEdge]

theorem withParent_ren (E : CBEnv) (cache : Cache SetOfCims) (p child : Label) (S : List Label) :
    (renameEnv ρ E).withParent (renameCache ρ cache) (ρ p) (ρ child) (S.map ρ)
      = renOut (fun r => (r.1.map (renameGraph ρ), renameCims ρ r.2)) (renameCache ρ) (E.withParent cache p child S) := by
  unfold CBEnv.withParent
  have hk : ρ p :: S.map ρ = (p :: S).map ρ := rfl
  rw [hk, find_ren hρ]
  cases Cache.find cache (p :: S) with
  | some v => rfl
  | none =>
    dsimp only [Option.map_none]
    rw [structure2_ren hρ, ren_new]
    have hg : ((do
        let g2 ← (renameGraph ρ (NetworkGraph.new (E.structure2 p child S))).fastInit (ρ child)
        let v ← computeOn (renameEnv ρ E).traj g2 (ρ child)
        return (g2, v)) : Py (NetworkGraph × SetOfCims)) = (fun r : NetworkGraph × SetOfCims => (renameGraph ρ r.1, renameCims ρ r.2)) <$> (do
        let g2 ← (NetworkGraph.new (E.structure2 p child S)).fastInit child
        let v ← computeOn E.traj g2 child
        return (g2, v)) := by
      rw [ren_fastInit hρ]
      refine Py.bind_map (fun g2 => ?_)
      have : computeOn (renameEnv ρ E).traj (renameGraph ρ g2) (ρ child) = renameCims ρ <$> computeOn E.traj g2 child := ren_computeOn hρ _ _ _
      rw [this]
      refine Py.bind_map (fun v => rfl)
    rw [hg]
    cases ((do
        let g2 ← (NetworkGraph.new (E.structure2 p child S)).fastInit child
        let v ← computeOn E.traj g2 child
        return (g2, v)) : Py (NetworkGraph × SetOfCims)) with
    | error e => rfl
    | ok r =>
      show (_, _) = (_, _)
      rw [← put_ren]
      rfl

theorem withoutParent_ren (E : CBEnv) (cache : Cache SetOfCims) (g2 : Option NetworkGraph) (p child : Label) (S : List Label) :
    (renameEnv ρ E).withoutParent (renameCache ρ cache) (g2.map (renameGraph ρ)) (ρ p) (ρ child) (S.map ρ)
      = renOut (renameCims ρ) (renameCache ρ) (E.withoutParent cache g2 p child S) := by
  unfold CBEnv.withoutParent
  rw [find_ren hρ]
  cases Cache.find cache S with
  | some v => rfl
  | none =>
    dsimp only [Option.map_none]
    cases g2 with
    | none => rfl
    | some g2 =>
      dsimp only [Option.map_some]
      have hg : ((do
          let g ← (renameGraph ρ g2).removeNode (ρ p)
          let g ← g.fastInit (ρ child)
          computeOn (renameEnv ρ E).traj g (ρ child)) : Py SetOfCims) = renameCims ρ <$> (do
          let g ← g2.removeNode p
          let g ← g.fastInit child
          computeOn E.traj g child) := by
        rw [ren_graphRemoveNode hρ]
        refine Py.bind_map (fun g => ?_)
        rw [ren_fastInit hρ]
        exact Py.bind_map (fun g => ren_computeOn hρ _ _ _)
      rw [hg]
      cases ((do
          let g ← g2.removeNode p
          let g ← g.fastInit child
          computeOn E.traj g child) : Py SetOfCims) with
      | error e => rfl
      | ok v =>
        show (_, _) = (_, _)
        rw [← put_ren]
        rfl

theorem thumb_ren (E : CBEnv) (p : Label) (S : List Label) (c : Nat) : (renameEnv ρ E).thumb (ρ p) (S.map ρ) c = E.thumb p S c := by
  unfold CBEnv.thumb
  have h : (renameEnv ρ E).struct.getStatesNumber (ρ p) = E.struct.getStatesNumber p := ren_getStatesNumber hρ _ _
  rw [h, masked_ren hρ]
  rfl

theorem cimsFilter_ren (E : CBEnv) (p : Label) (S : List Label) : (renameEnv ρ E).cimsFilter (ρ p) (S.map ρ) = E.cimsFilter p S := by
  unfold CBEnv.cimsFilter
  show ((E.struct.labels.map ρ).filter _).map _ = _
  have hS : S.map ρ ++ [ρ p] = (S ++ [p]).map ρ := by simp
  rw [hS, List.filter_map, List.map_map]
  have e1 : ((fun l => decide (l ∈ (S ++ [p]).map ρ)) ∘ ρ) = fun l => decide (l ∈ S ++ [p]) := by
    funext l
    exact decide_eq_decide.2 (mem_ren hρ)
  have e2 : ((fun l => decide (l ≠ ρ p)) ∘ ρ) = fun l => decide (l ≠ p) := by
    funext l
    exact decide_eq_decide.2 (not_congr hρ.eq_iff)
  rw [e1, e2]

omit hρ in
theorem compareInner_ren (E : CBEnv) (c th : Nat) (cim1 : Cim) (l : List Cim) : (renameEnv ρ E).compareInner c th cim1 l = E.compareInner c th cim1 l := by
  induction l with
  | nil => rfl
  | cons a l ih =>
    unfold CBEnv.compareInner
    rw [ih]
    rfl

omit hρ in
theorem compareLoop_ren (E : CBEnv) (c th : Nat) (s : SetOfCims) (mask : List Bool) (l : List (Cim × List Nat)) :
    (renameEnv ρ E).compareLoop c th (renameCims ρ s) mask l = E.compareLoop c th s mask l := by
  induction l with
  | nil => rfl
  | cons a l ih =>
    unfold CBEnv.compareLoop
    simp only [ih, compareInner_ren]
    rfl

theorem verdict_ren (E : CBEnv) (cache : Cache SetOfCims) (p child : Label) (S : List Label) (c : Nat) :
    (renameEnv ρ E).verdict (renameCache ρ cache) (ρ p) (ρ child) (S.map ρ) c = renOut id (renameCache ρ) (E.verdict cache p child S c) := by
  unfold CBEnv.verdict
  rw [withParent_ren hρ]
  obtain ⟨r, cache1⟩ := E.withParent cache p child S
  cases r with
  | error e => rfl
  | ok r =>
    obtain ⟨g2, s2⟩ := r
    dsimp only [renOut, Py.map_ok]
    rw [withoutParent_ren hρ]
    obtain ⟨r, cache2⟩ := E.withoutParent cache1 g2 p child S
    cases r with
    | error e => rfl
    | ok s1 =>
      show (_, _) = (_, _)
      rw [thumb_ren hρ, cimsFilter_ren hρ]
      simp only [compareLoop_ren]
      simp only [id_map]
      rfl

theorem completeTest_ren (E : CBEnv) (st : CBState) (p child : Label) (S : List Label) (c i j : Nat) :
    (renameEnv ρ E).completeTest (renameState ρ st) (ρ p) (ρ child) (S.map ρ) c i j
      = renOut id (renameState ρ) (E.completeTest st p child S c i j) := by
  unfold CBEnv.completeTest
  have h : (renameState ρ st).cache = renameCache ρ st.cache := rfl
  rw [h, verdict_ren hρ]
  obtain ⟨r, cache⟩ := E.verdict st.cache p child S c
  cases r with
  | error e => rfl
  | ok v =>
    cases v with
    | accept => rfl
    | reject => rfl
    | rejectMark =>
      show (match setFalse st.removable i j with
        | .error e => _
        | .ok m => _) = renOut id _ (match setFalse st.removable i j with
        | .error e => _
        | .ok m => _)
      cases setFalse st.removable i j <;> rfl

omit hρ in
theorem combos_map {α β : Type} (f : α → β) : ∀ (k : Nat) (l : List α), combos k (l.map f) = (combos k l).map (List.map f)
  | 0, l => by cases l <;> simp [combos]
  | k + 1, [] => rfl
  | k + 1, x :: xs => by
    rw [List.map_cons]
    unfold combos
    rw [combos_map f k xs, combos_map f (k + 1) xs, List.map_append, List.map_map, List.map_map]
    rfl

theorem subSets_ren (u : List Label) (k : Nat) (p : Label) : subSetsOfSize (u.map ρ) k (ρ p) = List.map (List.map ρ) <$> subSetsOfSize u k p := by
  unfold subSetsOfSize
  rw [pyRemove_ren hρ]
  refine Py.bind_map (fun r => ?_)
  rw [combos_map]
  rfl

section loops
variable {σ τ : Type} {T : CBTest σ} {T' : CBTest τ} {h : σ → τ}
  (hflag : ∀ p s, T'.flag (ρ p) (h s) = T.flag p s)
  (htest : ∀ p S s, T'.test (ρ p) (S.map ρ) (h s) = renOut id h (T.test p S s))
include htest

omit hρ in
theorem subsetLoop_ren (p : Label) (Ss : List (List Label)) : ∀ s, subsetLoop T' (ρ p) (Ss.map (List.map ρ)) (h s) = renOut id h (subsetLoop T p Ss s) := by
  induction Ss with
  | nil => intro s; rfl
  | cons S Ss ih =>
    intro s
    rw [List.map_cons]
    unfold subsetLoop
    rw [htest]
    obtain ⟨r, s1⟩ := T.test p S s
    cases r with
    | error e => rfl
    | ok b =>
      cases b with
      | true => rfl
      | false => exact ih s1

include hflag

theorem visit_ren (b : Nat) (u : List Label) (p : Label) (s : σ) : visit T' b (u.map ρ) (ρ p) (h s) = renOut id h (visit T b u p s) := by
  unfold visit
  rw [hflag, subSets_ren hρ]
  cases T.flag p s with
  | error e => rfl
  | ok f =>
    cases f with
    | false => rfl
    | true =>
      cases subSetsOfSize u b p with
      | error e => rfl
      | ok Ss => exact subsetLoop_ren htest p Ss s

/-- Candidates and graph, renamed. -/
abbrev renRes (ρ : Label → Label) (r : List Label × NetworkGraph) : List Label × NetworkGraph := (r.1.map ρ, renameGraph ρ r.2)

theorem innerLoop_ren (child : Label) (b : Nat) (u : List Label) (g : NetworkGraph) (idx : Nat) (s : σ) :
    innerLoop T' (ρ child) b (u.map ρ) (renameGraph ρ g) idx (h s) = renOut (renRes ρ) h (innerLoop T child b u g idx s) := by
  fun_induction innerLoop T child b u g idx s with
  | case1 u g idx s hlt e s1 hv =>
    rw [innerLoop, dif_pos (by simpa using hlt)]
    simp only [List.getElem_map]
    rw [visit_ren hρ hflag htest, hv]
    rfl
  | case2 u g idx s hlt s1 hv ih =>
    rw [innerLoop, dif_pos (by simpa using hlt)]
    simp only [List.getElem_map]
    rw [visit_ren hρ hflag htest, hv]
    show innerLoop T' (ρ child) b ((u.map ρ).erase (ρ u[idx])) ((renameGraph ρ g).removeEdges [(ρ u[idx], ρ child)]) idx (h s1) = _
    rw [← List.map_erase hρ, ren_removeEdge1 hρ]
    exact ih
  | case3 u g idx s hlt s1 hv ih =>
    rw [innerLoop, dif_pos (by simpa using hlt)]
    simp only [List.getElem_map]
    rw [visit_ren hρ hflag htest, hv]
    exact ih
  | case4 u g idx s hlt =>
    rw [innerLoop, dif_neg (by simpa using hlt)]
    rfl

theorem outerLoop_ren (child : Label) (b : Nat) (u : List Label) (g : NetworkGraph) (s : σ) :
    outerLoop T' (ρ child) b (u.map ρ) (renameGraph ρ g) (h s) = renOut (renRes ρ) h (outerLoop T child b u g s) := by
  fun_induction outerLoop T child b u g s with
  | case1 b u g s hlt e s1 hv =>
    rw [outerLoop, if_pos (by simpa using hlt)]
    have := innerLoop_ren hρ hflag htest child b u g 0 s
    rw [hv] at this
    split
    · rename_i heq; rw [this] at heq; simp only [renOut, Prod.mk.injEq] at heq; obtain ⟨h1, h2⟩ := heq; subst h2; rw [← h1]; rfl
    · rename_i heq; rw [this] at heq; simp only [renOut, Prod.mk.injEq] at heq; exact nomatch heq.1
  | case2 b u g s hlt u' g' s1 hv ih =>
    rw [outerLoop, if_pos (by simpa using hlt)]
    have := innerLoop_ren hρ hflag htest child b u g 0 s
    rw [hv] at this
    split
    · rename_i heq; rw [this] at heq; simp only [renOut, Prod.mk.injEq] at heq; exact nomatch heq.1
    · rename_i heq
      rw [this] at heq
      simp only [renOut, Prod.mk.injEq, Py.map_ok, Except.ok.injEq] at heq
      obtain ⟨⟨h1, h3⟩, h2⟩ := heq
      subst h2 h1 h3
      exact ih
  | case3 b u g s hlt =>
    rw [outerLoop, if_neg (by simpa using hlt)]
    rfl

end loops

theorem others_ren (E : CBEnv) (child : Label) : (renameEnv ρ E).others (ρ child) = (E.others child).map ρ := by
  unfold CBEnv.others
  show (E.struct.labels.map ρ).filter _ = _
  rw [List.filter_map]
  congr 1
  exact List.filter_congr (fun l _ => decide_eq_decide.2 (not_congr hρ.eq_iff))

theorem foldl_addEdges_ren (child : Label) (l : List Label) : ∀ g : NetworkGraph,
    (l.map ρ).foldl (fun g p => g.addEdges [(p, ρ child)]) (renameGraph ρ g) = renameGraph ρ (l.foldl (fun g p => g.addEdges [(p, child)]) g) := by
  induction l with
  | nil => intro g; rfl
  | cons p l ih => intro g; rw [List.map_cons, List.foldl_cons, List.foldl_cons, ren_addEdge1 hρ, ih]

theorem startGraph_ren (E : CBEnv) (child : Label) : (renameEnv ρ E).startGraph (ρ child) = renameGraph ρ (E.startGraph child) := by
  unfold CBEnv.startGraph
  rw [others_ren hρ, ← foldl_addEdges_ren hρ]
  rfl

theorem optimize_ren (E : CBEnv) (st : CBState) (child : Label) :
    (renameEnv ρ E).optimize (renameState ρ st) (ρ child) = renOut (List.map (renameEdge ρ)) (renameState ρ) (E.optimize st child) := by
  unfold CBEnv.optimize
  have hs : ∀ l, (renameEnv ρ E).struct.getStatesNumber (ρ l) = E.struct.getStatesNumber l := fun l => ren_getStatesNumber hρ _ _
  have hi : ∀ l, (renameEnv ρ E).struct.getNodeIndx (ρ l) = E.struct.getNodeIndx l := fun l => ren_getNodeIndx hρ _ _
  rw [hs, others_ren hρ, startGraph_ren hρ]
  cases E.struct.getStatesNumber child with
  | error e => rfl
  | ok c =>
    dsimp only
    have := outerLoop_ren hρ (T := E.calls child c) (T' := (renameEnv ρ E).calls (ρ child) c) (h := renameState ρ) (fun p s => by
        unfold CBEnv.calls
        dsimp only
        rw [hi, hi]
        rfl) (fun p S s => by
        unfold CBEnv.calls
        dsimp only
        rw [hi, hi]
        cases E.struct.getNodeIndx p with
        | error e => cases E.struct.getNodeIndx child <;> rfl
        | ok i =>
          cases E.struct.getNodeIndx child with
          | error e => rfl
          | ok j => exact completeTest_ren hρ E s p child S c i j) child 0 (E.others child) (E.startGraph child) st
    rw [this]
    obtain ⟨r, s1⟩ := outerLoop (E.calls child c) child 0 (E.others child) (E.startGraph child) st
    cases r with
    | error e => rfl
    | ok r =>
      show (_, _) = (_, _)
      rw [ren_edges hρ]
      rfl

theorem ctpcSeqLoop_ren (E : CBEnv) (ns : List Label) : ∀ st, (renameEnv ρ E).ctpcSeqLoop (ns.map ρ) (renameState ρ st)
    = renOut (List.map (List.map (renameEdge ρ))) (renameState ρ) (E.ctpcSeqLoop ns st) := by
  induction ns with
  | nil => intro st; rfl
  | cons n ns ih =>
    intro st
    rw [List.map_cons]
    unfold CBEnv.ctpcSeqLoop
    rw [optimize_ren hρ]
    obtain ⟨r, s1⟩ := E.optimize st n
    cases r with
    | error e => rfl
    | ok es =>
      show (match (renameEnv ρ E).ctpcSeqLoop (ns.map ρ) (renameState ρ s1) with
        | (.error e, st) => _
        | (.ok ess, st) => _) = renOut _ _ (match E.ctpcSeqLoop ns s1 with
        | (.error e, st) => _
        | (.ok ess, st) => _)
      rw [ih]
      obtain ⟨r, s2⟩ := E.ctpcSeqLoop ns s1
      cases r <;> rfl

theorem ctpcSequential_ren (E : CBEnv) (st : CBState) : (renameEnv ρ E).ctpcSequential (renameState ρ st)
    = renOut (List.map (renameEdge ρ)) (renameState ρ) (E.ctpcSequential st) := by
  unfold CBEnv.ctpcSequential
  have : (renameEnv ρ E).ctpcSeqLoop (renameEnv ρ E).struct.labels (renameState ρ st) = _ := ctpcSeqLoop_ren hρ E E.struct.labels st
  rw [this]
  obtain ⟨r, s⟩ := E.ctpcSeqLoop E.struct.labels st
  cases r with
  | error e => rfl
  | ok ess =>
    show (_, _) = (_, _)
    rw [Py.map_ok, ← List.map_flatten]

theorem lookup_ren {β γ : Type} (f : β → γ) (k : Label) (l : List (Label × β)) :
    (l.map (fun p => (ρ p.1, f p.2))).lookup (ρ k) = (l.lookup k).map f := by
  induction l with
  | nil => rfl
  | cons p l ih =>
    rw [List.map_cons, List.lookup_cons, List.lookup_cons, ih]
    by_cases h : k = p.1
    · subst h; simp
    · have : ρ k ≠ ρ p.1 := fun hh => h (hρ hh)
      simp only [beq_eq_false_iff_ne.2 h, beq_eq_false_iff_ne.2 this]

theorem ctpcParallel_ren (E : CBEnv) (st : CBState) (order : List Label) : (renameEnv ρ E).ctpcParallel (renameState ρ st) (order.map ρ)
    = renOut (List.map (renameEdge ρ)) (renameState ρ) (E.ctpcParallel st order) := by
  unfold CBEnv.ctpcParallel renOut
  dsimp only
  congr 1
  have hd : (order.map ρ).map (fun n => (n, ((renameEnv ρ E).optimize (renameState ρ st) n).1))
      = (order.map (fun n => (n, (E.optimize st n).1))).map (fun p => (ρ p.1, (List.map (renameEdge ρ)) <$> p.2)) := by
    rw [List.map_map, List.map_map]
    refine List.map_congr_left (fun n _ => ?_)
    simp only [Function.comp, optimize_ren hρ]
    rfl
  rw [hd]
  show ((E.struct.labels.map ρ).mapM _ >>= _) = _
  rw [mapM_map_py (h := List.map (renameEdge ρ)) (g := fun n => match (order.map (fun n => (n, (E.optimize st n).1))).lookup n with
      | some r => r
      | none => .error .blocked) (fun n => ?_)]
  · refine Py.bind_map (fun ess => ?_)
    rw [← List.map_flatten]
    rfl
  · rw [lookup_ren hρ]
    cases (order.map (fun n => (n, (E.optimize st n).1))).lookup n <;> rfl

end
end PyCTBN
