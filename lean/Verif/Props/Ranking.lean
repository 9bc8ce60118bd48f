import Verif.Props.ScoreEst

/-!
# C113: searches depend only on the ranking of the scores
-/

namespace PyCTBN
namespace Spec

/-- A graph on which a search may evaluate the score of `n`: reachable by the graph's own operations, with edges into `n` only and no
self-loop, `fast_init` just called. -/
def Evaluated (s : Structure) (n : Label) (g : NetworkGraph) : Prop :=
  ∃ g0, Reach s g0 ∧ (∀ e ∈ g0.edges, e.2 = n ∧ e.1 ≠ n) ∧ g0.fastInit n = .ok g

/-- Two scores of `n` fail on the same graphs with the same exceptions, and order the other graphs alike. -/
structure SameRanking {S T : Type} [LinearOrder S] [LinearOrder T] (s : Structure) (n : Label)
    (sc : NetworkGraph → Py S) (sc' : NetworkGraph → Py T) : Prop where
  fails : ∀ g, Evaluated s n g → ∀ e, sc g = .error e ↔ sc' g = .error e
  ranks : ∀ g h, Evaluated s n g → Evaluated s n h → ∀ a b a' b', sc g = .ok a → sc h = .ok b → sc' g = .ok a' →
    sc' h = .ok b' → (a < b ↔ a' < b')

end Spec
open Spec SearchEnv

/-- Both computations raise the same exception, or both return and the results are related. -/
inductive RelPy {α β : Type} (R : α → β → Prop) : Py α → Py β → Prop
  | err (e : PyErr) : RelPy R (.error e) (.error e)
  | ok {a : α} {b : β} : R a b → RelPy R (.ok a) (.ok b)

theorem RelPy.bind {α β α' β' : Type} {R : α → β → Prop} {Q : α' → β' → Prop} {x : Py α} {y : Py β} {f : α → Py α'} {g : β → Py β'}
    (h : RelPy R x y) (hfg : ∀ a b, x = .ok a → y = .ok b → R a b → RelPy Q (f a) (g b)) : RelPy Q (x >>= f) (y >>= g) := by
  cases h with
  | err e => exact .err e
  | ok hab => exact hfg _ _ rfl rfl hab

theorem RelPy.refl {α : Type} (x : Py α) : RelPy Eq x x := by
  cases x with
  | error e => exact .err e
  | ok a => exact .ok rfl

theorem RelPy.map_eq {α β γ : Type} {R : α → β → Prop} {x : Py α} {y : Py β} {f : α → γ} {g : β → γ} (h : RelPy R x y)
    (hR : ∀ a b, R a b → f a = g b) : x.map f = y.map g := by
  cases h with
  | err e => rfl
  | ok hab => simp only [Except.map, hR _ _ hab]

section
variable {S T : Type} [LinearOrder S] [LinearOrder T] {s : Structure} {rem : List (List Bool)} {sc : Label → NetworkGraph → Py S}
  {sc' : Label → NetworkGraph → Py T} {n : Label} {mp : Option ℤ} {u : List Label} {g : NetworkGraph}

/-- Scores of one graph. -/
def SameGraph (s : Structure) (n : Label) (sc : NetworkGraph → Py S) (sc' : NetworkGraph → Py T) (a : S) (b : T) : Prop :=
  ∃ g, Evaluated s n g ∧ sc g = .ok a ∧ sc' g = .ok b

theorem SameGraph.lt (hr : SameRanking s n (sc n) (sc' n)) {a b : S} {a' b' : T} (h1 : SameGraph s n (sc n) (sc' n) a a')
    (h2 : SameGraph s n (sc n) (sc' n) b b') : a < b ↔ a' < b' := by
  obtain ⟨g, hg, x1, x2⟩ := h1
  obtain ⟨h, hh, y1, y2⟩ := h2
  exact hr.ranks g h hg hh _ _ _ _ x1 y1 x2 y2

theorem _root_.PyCTBN.SearchEnv.Proposal.noLoop {u u' : List Label} {p : Label} {d : Option Label} (h : Proposal mp u p u' d) (hl : n ∉ u)
    (hpn : p ≠ n) : n ∉ u' := by
  cases h with
  | remove _ => exact fun hc => hl (List.erase_subset hc)
  | add _ _ => exact fun hc => (List.mem_cons.1 hc).elim (fun e => hpn e.symm) hl
  | swap q k _ _ _ _ => exact fun hc => (List.mem_cons.1 hc).elim (fun e => hpn e.symm) (fun hc => hl (List.erase_subset hc))

theorem scoreGraph_rel (hr : SameRanking s n (sc n) (sc' n)) (hg : SGraph s n u g) (hloop : n ∉ u) :
    RelPy (fun o o' => o.2 = o'.2 ∧ SameGraph s n (sc n) (sc' n) o.1 o'.1)
      (SearchEnv.scoreGraph ⟨s, rem, sc⟩ n g) (SearchEnv.scoreGraph ⟨s, rem, sc'⟩ n g) := by
  unfold scoreGraph
  refine (RelPy.refl (g.fastInit n)).bind (fun g1 g1' h1 _ he => ?_)
  subst he
  have hev : Evaluated s n g1 := ⟨g, hg.reach, fun e he => ⟨((hg.edges_mem e).1 he).1, fun hc => hloop (hc ▸ ((hg.edges_mem e).1 he).2)⟩, h1⟩
  dsimp only
  cases ha : sc n g1 with
  | error e => rw [(hr.fails g1 hev e).1 ha]; exact .err e
  | ok a =>
    cases hb : sc' n g1 with
    | error e => rw [(hr.fails g1 hev e).2 hb] at ha; cases ha
    | ok b => exact .ok ⟨rfl, g1, hev, ha, hb⟩

theorem tryMove_rel (hr : SameRanking s n (sc n) (sc' n)) (hE : SearchReady (⟨s, rem, sc⟩ : SearchEnv S)) (hg : SGraph s n u g) (hu : u.Nodup)
    (hloop : n ∉ u) (hk : n ∈ g.graph.keys) (hn : n ∈ s.labels) {p : Label} (hp : p ∈ s.labels) (hpn : p ≠ n) {a : S} {b : T}
    (hab : SameGraph s n (sc n) (sc' n) a b) (r : Nat) :
    RelPy (fun o o' => o.1 = o'.1 ∧ o.2.1 = o'.2.1 ∧ SameGraph s n (sc n) (sc' n) o.2.2 o'.2.2)
      (SearchEnv.tryMove ⟨s, rem, sc⟩ n mp g a p r) (SearchEnv.tryMove ⟨s, rem, sc'⟩ n mp g b p r) := by
  unfold tryMove
  refine (RelPy.refl (propose n mp g p r)).bind (fun o o' h1 _ he => ?_)
  subst he
  obtain ⟨u', hP, hg1, -⟩ := propose_spec (E := ⟨s, rem, sc⟩) hg hu hk hn hp h1
  refine (scoreGraph_rel hr hg1 (hP.noLoop hloop hpn)).bind (fun x y _ _ hxy => ?_)
  obtain ⟨h2, h3⟩ := hxy
  obtain ⟨x1, x2⟩ := x
  obtain ⟨y1, y2⟩ := y
  simp only at h2 h3 ⊢
  subst h2
  have := hab.lt hr h3
  by_cases hlt : a < x1
  · rw [if_pos hlt, if_pos (this.1 hlt)]; exact .ok ⟨rfl, rfl, h3⟩
  · rw [if_neg hlt, if_neg (fun h => hlt (this.2 h))]; exact .ok ⟨rfl, rfl, h3⟩

theorem hillLoop_rel (hr : SameRanking s n (sc n) (sc' n)) (hE : SearchReady (⟨s, rem, sc⟩ : SearchEnv S)) (hn : n ∈ s.labels)
    {others : List Label} (ho : ∀ p ∈ others, p ∈ s.labels ∧ p ≠ n) {patience : Option ℤ} {pick drop : Nat → Nat}
    (k i : Nat) (g : NetworkGraph) (u : List Label) (a : S) (b : T) (count : Nat) (log : List S) (log' : List T)
    (hg : SGraph s n u g) (hu : u.Nodup) (hloop : n ∉ u) (hk : n ∈ g.graph.keys) (hab : SameGraph s n (sc n) (sc' n) a b) :
    RelPy (fun o o' => o.1 = o'.1)
      (SearchEnv.hillLoop ⟨s, rem, sc⟩ n others mp patience pick drop k i g a count log)
      (SearchEnv.hillLoop ⟨s, rem, sc'⟩ n others mp patience pick drop k i g b count log') := by
  induction k generalizing i g u a b count log log' with
  | zero => rw [hillLoop, hillLoop]; exact .ok rfl
  | succ k ih =>
    rw [hillLoop, hillLoop]
    refine (RelPy.refl (choice others (pick i))).bind (fun p p' h1 _ he => ?_)
    subst he
    obtain ⟨hp, hpn⟩ := ho p (choice_mem h1)
    refine (tryMove_rel hr hE hg hu hloop hk hn hp hpn hab (drop i)).bind (fun o o' h2 _ ho2 => ?_)
    obtain ⟨u', d, hP, -, k2, k3, -⟩ := tryMove_spec hE hg hu hk hn hp h2
    obtain ⟨g1, imp, x⟩ := o
    obtain ⟨g1', imp', y⟩ := o'
    obtain ⟨e1, e2, hxy⟩ := ho2
    simp only at e1 e2 hxy k2 k3 ⊢
    subst e1 e2
    by_cases hout : outOfPatience patience (if imp = true then 0 else count + 1) = true
    · rw [if_pos hout, if_pos hout]; exact .ok rfl
    · rw [if_neg hout, if_neg hout]
      refine ih _ _ (if imp then u' else u) _ _ _ _ _ k2 ?_ ?_ k3 ?_
      · cases imp
        · exact hu
        · exact hP.nodup hu
      · cases imp
        · exact hloop
        · exact hP.noLoop hloop hpn
      · cases imp
        · exact hab
        · exact hxy

theorem tabuLoop_rel (hr : SameRanking s n (sc n) (sc' n)) (hE : SearchReady (⟨s, rem, sc⟩ : SearchEnv S)) (hn : n ∈ s.labels)
    {others : List Label} (ho : ∀ p ∈ others, p ∈ s.labels ∧ p ≠ n) {patience : Option ℤ} {length duration : ℤ} {pick drop : Nat → Nat}
    (k i : Nat) (g : NetworkGraph) (u : List Label) (a : S) (b : T) (count : Nat) (done q t : List Label) (c : Nat)
    (log : List (TabuStep S)) (log' : List (TabuStep T)) (hlog : log.map (fun st => (st.cand, st.queue)) = log'.map (fun st => (st.cand, st.queue)))
    (hQ : QInv others done q t length)
    (hg : SGraph s n u g) (hu : u.Nodup) (hloop : n ∉ u) (hk : n ∈ g.graph.keys) (hab : SameGraph s n (sc n) (sc' n) a b) :
    RelPy (fun o o' => o.1 = o'.1 ∧ o.2.map (fun st => (st.cand, st.queue)) = o'.2.map (fun st => (st.cand, st.queue)))
      (SearchEnv.tabuLoop ⟨s, rem, sc⟩ n others mp patience length duration pick drop k i g a count q t c log)
      (SearchEnv.tabuLoop ⟨s, rem, sc'⟩ n others mp patience length duration pick drop k i g b count q t c log') := by
  induction k generalizing i g u a b count done q t c log log' with
  | zero => rw [tabuLoop, tabuLoop]; exact .ok ⟨rfl, hlog⟩
  | succ k ih =>
    rw [tabuLoop, tabuLoop]
    refine (RelPy.refl (tabuPick others q t (pick i))).bind (fun o o' h1 _ he => ?_)
    subst he
    obtain ⟨p, q1, t1⟩ := o
    obtain ⟨c1, c2, c3, c4, c5⟩ := tabuPick_spec hQ h1
    obtain ⟨hp, hpn⟩ := ho p c1
    refine (tryMove_rel hr hE hg hu hloop hk hn hp hpn hab (drop i)).bind (fun o o' h2 _ ho2 => ?_)
    obtain ⟨u', d, hP, -, k2, k3, -⟩ := tryMove_spec hE hg hu hk hn hp h2
    obtain ⟨g1, imp, x⟩ := o
    obtain ⟨g1', imp', y⟩ := o'
    obtain ⟨e1, e2, hxy⟩ := ho2
    simp only at e1 e2 hxy k2 k3 ⊢
    subst e1 e2
    refine (RelPy.refl (tabuUpdate length duration q1 t1 p c)).bind (fun o o' h3 _ he => ?_)
    subst he
    obtain ⟨q2, t2, c'⟩ := o
    have hb : (q1.length : ℤ) ≤ max 0 length := by
      have h1 := c4.length_le
      have h2 := hQ.bound
      omega
    obtain ⟨hQ2, -, -⟩ := tabuUpdate_spec c3 (hQ.nodup.sublist c4.sublist) (fun x hx => hQ.sub x (c4.subset hx)) (c4.trans hQ.suffix) hb
      c1 c2 h3
    have hlog2 : (log ++ [(⟨p, q, x⟩ : TabuStep S)]).map (fun st => (st.cand, st.queue)) =
        (log' ++ [(⟨p, q, y⟩ : TabuStep T)]).map (fun st => (st.cand, st.queue)) := by simp [hlog]
    dsimp only
    by_cases hout : outOfPatience patience (if imp = true then 0 else count + 1) = true
    · rw [if_pos hout, if_pos hout]; exact .ok ⟨rfl, hlog2⟩
    · rw [if_neg hout, if_neg hout]
      refine ih _ _ (if imp then u' else u) _ _ _ _ _ _ _ _ _ hlog2 hQ2 k2 ?_ ?_ k3 ?_
      · cases imp
        · exact hu
        · exact hP.nodup hu
      · cases imp
        · exact hloop
        · exact hP.noLoop hloop hpn
      · cases imp
        · exact hab
        · exact hxy

variable {known : List Edge} {iterations : Nat} {patience tl td : Option ℤ} {pick drop : Nat → Nat}

/-- C113.  Hill climbing: two scores that rank the structures of the node alike give the same edges, or the same exception, for the same
draws. -/
theorem hill_ranking (hI : SearchInput s rem known) (hr : SameRanking s n (sc n) (sc' n)) :
    (SearchEnv.hill ⟨s, rem, sc⟩ n mp iterations patience pick drop).map Prod.fst =
      (SearchEnv.hill ⟨s, rem, sc'⟩ n mp iterations patience pick drop).map Prod.fst := by
  have hE : SearchReady (⟨s, rem, sc⟩ : SearchEnv S) := ⟨hI.wf, hI.noEdges⟩
  have hK : KnownEdges (⟨s, rem, sc⟩ : SearchEnv S) known := ⟨hI.indexed, hI.built, hI.noLoop⟩
  refine RelPy.map_eq (R := fun o o' => o.1 = o'.1) ?_ (fun _ _ h => h)
  unfold hill
  refine (RelPy.refl (s.getNodeIndx n)).bind (fun j j' hj _ he => ?_)
  subst he
  have hn : n ∈ s.labels := List.mem_of_getElem? ((getNodeIndx_range hE.wf hK.indexed n j).1 hj)
  obtain ⟨prior, h1, h2, h3⟩ := priorParents_spec hE hK hj
  have h1' : SearchEnv.priorParents (⟨s, rem, sc'⟩ : SearchEnv T) j = .ok prior := h1
  rw [h1, h1']
  simp only [Except.bind_ok']
  have hbuilt := (removable_matrix_built_iff s.labels.length known).1 ⟨_, hK.built⟩
  have hsub : ∀ p ∈ prior, p ∈ s.labels := by
    intro p hp
    obtain ⟨i, _, k1, _, _, _⟩ := hbuilt _ ((h3 p).1 hp)
    exact List.mem_of_getElem? ((getNodeIndx_range hE.wf hK.indexed _ _).1 k1)
  have hg0 := initGraph_spec prior hE hn hsub
  have hloop : n ∉ prior := fun hc => hK.noLoop _ ((h3 n).1 hc) rfl
  refine (scoreGraph_rel hr hg0 hloop).bind (fun o o' ho ho' hoo => ?_)
  obtain ⟨k1, k2, -⟩ := scoreGraph_spec hE hg0 hn ho
  obtain ⟨a, g⟩ := o
  obtain ⟨b, g'⟩ := o'
  obtain ⟨e1, hab⟩ := hoo
  simp only at e1 hab k1 k2 ⊢
  subst e1
  refine (hillLoop_rel hr hE hn (fun p hp => ⟨(mem_otherNodes.1 hp).1, (mem_otherNodes.1 hp).2.1⟩) _ _ g prior a b 0 [a] [b] k1 h2 hloop k2 hab).bind (fun o o' _ _ h => ?_)
  exact .ok (by show o.1.edges = o'.1.edges; rw [h])

/-- C113.  Tabu search: likewise, and the candidates examined and the tabu lists are the same. -/
theorem tabu_ranking (hI : SearchInput s rem known) (hr : SameRanking s n (sc n) (sc' n)) :
    (SearchEnv.tabu ⟨s, rem, sc⟩ n mp iterations patience tl td pick drop).map
        (fun o => (o.1, o.2.2.map (fun st => (st.cand, st.queue)))) =
      (SearchEnv.tabu ⟨s, rem, sc'⟩ n mp iterations patience tl td pick drop).map
        (fun o => (o.1, o.2.2.map (fun st => (st.cand, st.queue)))) := by
  have hE : SearchReady (⟨s, rem, sc⟩ : SearchEnv S) := ⟨hI.wf, hI.noEdges⟩
  have hK : KnownEdges (⟨s, rem, sc⟩ : SearchEnv S) known := ⟨hI.indexed, hI.built, hI.noLoop⟩
  refine RelPy.map_eq (R := fun o o' => o.1 = o'.1 ∧
    o.2.2.map (fun st => (st.cand, st.queue)) = o'.2.2.map (fun st => (st.cand, st.queue))) ?_ (fun _ _ h => by rw [h.1, h.2])
  unfold tabu
  refine (RelPy.refl (s.getNodeIndx n)).bind (fun j j' hj _ he => ?_)
  subst he
  have hn : n ∈ s.labels := List.mem_of_getElem? ((getNodeIndx_range hE.wf hK.indexed n j).1 hj)
  obtain ⟨prior, h1, h2, h3⟩ := priorParents_spec hE hK hj
  have h1' : SearchEnv.priorParents (⟨s, rem, sc'⟩ : SearchEnv T) j = .ok prior := h1
  rw [h1, h1']
  simp only [Except.bind_ok']
  have hbuilt := (removable_matrix_built_iff s.labels.length known).1 ⟨_, hK.built⟩
  have hsub : ∀ p ∈ prior, p ∈ s.labels := by
    intro p hp
    obtain ⟨i, _, k1, _, _, _⟩ := hbuilt _ ((h3 p).1 hp)
    exact List.mem_of_getElem? ((getNodeIndx_range hE.wf hK.indexed _ _).1 k1)
  have hg0 := initGraph_spec prior hE hn hsub
  have hloop : n ∉ prior := fun hc => hK.noLoop _ ((h3 n).1 hc) rfl
  refine (scoreGraph_rel hr hg0 hloop).bind (fun o o' ho ho' hoo => ?_)
  obtain ⟨k1, k2, -⟩ := scoreGraph_spec hE hg0 hn ho
  obtain ⟨a, g⟩ := o
  obtain ⟨b, g'⟩ := o'
  obtain ⟨e1, hab⟩ := hoo
  simp only at e1 hab k1 k2 ⊢
  subst e1
  refine (tabuLoop_rel hr hE hn (fun p hp => ⟨(mem_otherNodes.1 hp).1, (mem_otherNodes.1 hp).2.1⟩) _ _ g prior a b 0 [] [] [] 0 [] [] rfl
    ⟨fun x => Iff.rfl, List.nodup_nil, fun x hx => (List.not_mem_nil hx).elim, List.suffix_rfl, by simp⟩ k1 h2 hloop k2 hab).bind (fun o o' _ _ h => ?_)
  exact .ok ⟨by show o.1.edges = o'.1.edges; rw [h.1], h.2⟩

/-- One node's search inside `estimate_structure`. -/
theorem estimateParents_ranking {a : SBArgs} (hI : SearchInput s rem known) (hr : SameRanking s n (sc n) (sc' n)) :
    estimateParents ⟨s, rem, sc⟩ a pick drop n = estimateParents ⟨s, rem, sc'⟩ a pick drop n := by
  have hmap : ∀ {α β : Type} (x : Py α) (f : α → β), (do let r ← x; return f r) = x.map f := by
    intro α β x f; cases x <;> rfl
  unfold estimateParents
  split
  · have h := tabu_ranking (mp := a.maxParents) (iterations := a.iterations) (patience := a.patience) (tl := a.tabuLength)
      (td := a.tabuDuration) (pick := pick) (drop := drop) hI hr
    have h2 := congrArg (Except.map Prod.fst) h
    rw [hmap, hmap]
    revert h2
    cases SearchEnv.tabu ⟨s, rem, sc⟩ n a.maxParents a.iterations a.patience a.tabuLength a.tabuDuration pick drop <;>
      cases SearchEnv.tabu ⟨s, rem, sc'⟩ n a.maxParents a.iterations a.patience a.tabuLength a.tabuDuration pick drop <;>
      exact fun h => h
  · rw [hmap, hmap]
    exact hill_ranking hI hr

/-- C113.  `estimate_structure`: with scores that rank every node's structures alike, the same draws give the same edges, the same report
and the same estimator afterwards, or the same exception. -/
theorem estimate_ranking {e : Estimator} {a : SBArgs} {order : Option (List Label)} {picks drops : Label → Nat → Nat}
    (ho : ∀ o, order = some o → o.Perm e.struct.labels) (hI : SearchInput e.struct.cleanEdges rem known)
    (hr : ∀ m ∈ e.struct.labels, SameRanking e.struct.cleanEdges m (sc m) (sc' m)) :
    estimateStructure sc rem e a order picks drops = estimateStructure sc' rem e a order picks drops := by
  have hrun : ∀ m ∈ e.struct.labels, estimateParents ⟨e.struct.cleanEdges, rem, sc⟩ a (picks m) (drops m) m =
      estimateParents ⟨e.struct.cleanEdges, rem, sc'⟩ a (picks m) (drops m) m := fun m hm => estimateParents_ranking hI (hr m hm)
  have hseq : perNodeSequential (fun m => estimateParents ⟨e.struct.cleanEdges, rem, sc⟩ a (picks m) (drops m) m) e.struct.labels =
      perNodeSequential (fun m => estimateParents ⟨e.struct.cleanEdges, rem, sc'⟩ a (picks m) (drops m) m) e.struct.labels :=
    mapM_congr' hrun
  unfold estimateStructure
  cases order with
  | none => exact congrArg (fun r : Py (List (List Edge)) => match r with
      | .error x => ((.error x : Py (Finset Edge × Option (ℚ × ℚ))), { e with struct := e.struct.cleanEdges })
      | .ok ess => (.ok (ess.flatten.toFinset, report e.struct.edges.toFinset ess.flatten.toFinset), e.update ess.flatten.dedup)) hseq
  | some o =>
    have hpar : perNodeParallel (fun m => estimateParents ⟨e.struct.cleanEdges, rem, sc⟩ a (picks m) (drops m) m) e.struct.labels o =
        perNodeParallel (fun m => estimateParents ⟨e.struct.cleanEdges, rem, sc'⟩ a (picks m) (drops m) m) e.struct.labels o := by
      rw [perNodeParallel_eq (ho o rfl), perNodeParallel_eq (ho o rfl), hseq]
      have : (∃ m ∈ e.struct.labels, estimateParents ⟨e.struct.cleanEdges, rem, sc⟩ a (picks m) (drops m) m = .error .blocked) ↔
          ∃ m ∈ e.struct.labels, estimateParents ⟨e.struct.cleanEdges, rem, sc'⟩ a (picks m) (drops m) m = .error .blocked := by
        constructor
        · rintro ⟨m, hm, h⟩; exact ⟨m, hm, by rw [← hrun m hm]; exact h⟩
        · rintro ⟨m, hm, h⟩; exact ⟨m, hm, by rw [hrun m hm]; exact h⟩
      by_cases hb : ∃ m ∈ e.struct.labels, estimateParents ⟨e.struct.cleanEdges, rem, sc⟩ a (picks m) (drops m) m = .error .blocked
      · rw [if_pos hb, if_pos (this.1 hb)]
      · rw [if_neg hb, if_neg (fun h => hb (this.2 h))]
    exact congrArg (fun r : Py (List (List Edge)) => match r with
      | .error x => ((.error x : Py (Finset Edge × Option (ℚ × ℚ))), { e with struct := e.struct.cleanEdges })
      | .ok ess => (.ok (ess.flatten.toFinset, report e.struct.edges.toFinset ess.flatten.toFinset), e.update ess.flatten.dedup)) hpar

/-- Any strictly increasing function of a score ranks like it. -/
theorem sameRanking_of_strictMono (s : Structure) (n : Label) (sc : NetworkGraph → Py S) {φ : S → T} (hφ : StrictMono φ) :
    SameRanking s n sc (fun g => (sc g).map φ) := by
  constructor
  · intro g _ e
    cases h : sc g <;> simp [Except.map]
  · intro g h _ _ a b a' b' ha hb ha' hb'
    rw [ha] at ha'; rw [hb] at hb'
    cases ha'; cases hb'
    exact hφ.lt_iff_lt.symm
end

/-- C113, with the library's own score: searching with `get_fam_score` or with its exponential, the marginal likelihood itself (C42), or
with the score shifted by a constant, is the same search. -/
theorem famscore_shift_ranking (s : Structure) (t : Trajectory) (tau alpha k : ℝ) (n : Label) :
    SameRanking s n (famScoreOn t tau alpha n) (fun g => (famScoreOn t tau alpha n g).map (fun v => v + k)) ∧
    SameRanking s n (famScoreOn t tau alpha n) (fun g => (famScoreOn t tau alpha n g).map Real.exp) :=
  ⟨sameRanking_of_strictMono s n _ (fun _ _ h => by simpa using h), sameRanking_of_strictMono s n _ Real.exp_strictMono⟩

end PyCTBN
