import Verif.Props.Search

/-!
Runs of the searches chosen by an adversary: every score function of the parents and all draws are possible.
-/

namespace PyCTBN
open Spec
namespace SearchEnv

/-- The search on the input with a score that is a function of the parents. -/
abbrev byScore (s : Structure) (removable : List (List Bool)) (f : Finset Label → ℤ) : SearchEnv ℤ := ⟨s, removable, scoreBy f⟩

variable {s : Structure} {rm : List (List Bool)} {known : List Edge} {f : Finset Label → ℤ} {n : Label} {mp : Option ℤ}

theorem byScore_ready (h : SearchInput s rm known) : SearchReady (byScore s rm f) := ⟨h.wf, h.noEdges⟩
theorem byScore_known (h : SearchInput s rm known) : KnownEdges (byScore s rm f) known := ⟨h.indexed, h.built, h.noLoop⟩
theorem byScore_scorable : Scorable (byScore s rm f) n := fun _ _ _ _ => ⟨_, rfl⟩
theorem byScore_scoreOf : ScoreOf (byScore s rm f) n (fun ps => .ok (f ps)) := fun _ _ _ _ => rfl

/-- The graph between iterations. -/
structure AInv (s : Structure) (n : Label) (g : NetworkGraph) (u : List Label) : Prop where
  graph : SGraph s n u g
  key : n ∈ g.graph.keys
  nodup : u.Nodup
  loop : n ∉ u

theorem tryMove_of_propose (hR : SearchReady (byScore s rm f)) {g : NetworkGraph} {u u' : List Label} (hI : AInv s n g u)
    (hn : n ∈ s.labels) {p : Label} (hpn : p ≠ n) {best : ℤ} {r : Nat} {g1 : NetworkGraph} {d : Option Label}
    (hpr : propose n mp g p r = .ok (g1, decide (p ∉ u), d)) (hP : Proposal mp u p u' d) (hg1 : SGraph s n u' g1) :
    ∃ g', (byScore s rm f).tryMove n mp g best p r = .ok (g', decide (best < f u'.toFinset), f u'.toFinset) ∧
      AInv s n g' (if best < f u'.toFinset then u' else u) := by
  unfold tryMove
  rw [hpr]
  simp only [Except.bind_ok']
  obtain ⟨g2, h1, h2, h3⟩ := hg1.fastInit hn hR.noEdges
  have hsc : (byScore s rm f).scoreGraph n g1 = .ok (f u'.toFinset, g2) := by
    unfold scoreGraph
    rw [h1]
    simp only [Except.bind_ok', scoreBy, h2.parentsIn_eq]
    rfl
  rw [hsc]
  simp only [Except.bind_ok']
  have hloop : n ∉ u' := by
    cases hP with
    | remove _ => exact fun hc => hI.loop (List.erase_subset hc)
    | add _ _ => exact fun hc => (List.mem_cons.1 hc).elim (fun e => hpn e.symm) hI.loop
    | swap q k _ _ _ _ => exact fun hc => (List.mem_cons.1 hc).elim (fun e => hpn e.symm) (fun hc => hI.loop (List.erase_subset hc))
  by_cases hb : best < f u'.toFinset
  · simp only [hb, if_true, decide_true]
    exact ⟨g2, rfl, h2, h3, hP.nodup hI.nodup, hloop⟩
  · simp only [hb, if_false, decide_false]
    refine ⟨_, rfl, undo_spec (E := byScore s rm f) hI.nodup hI.graph.sub hn hP h2, ?_, hI.nodup, hI.loop⟩
    simp only [undo]
    split
    · split
      · exact DiGraph.mem_addEdgesFrom_keys.2 (Or.inl h3)
      · exact h3
    · exact DiGraph.mem_addEdgesFrom_keys.2 (Or.inl h3)

/-- A move whose candidate can be added or removed, or exchanged because there is a parent, is evaluated. -/
theorem step_ok (hR : SearchReady (byScore s rm f)) {g : NetworkGraph} {u : List Label} (hI : AInv s n g u)
    (hn : n ∈ s.labels) {p : Label} (hp : p ∈ s.labels) (hpn : p ≠ n)
    (hne : ∀ k, mp = some k → p ∉ u → k ≤ u.length → u ≠ []) (best : ℤ) (r : Nat) :
    ∃ g' u' d, (byScore s rm f).tryMove n mp g best p r = .ok (g', decide (best < f u'.toFinset), f u'.toFinset) ∧ Proposal mp u p u' d ∧
      AInv s n g' (if best < f u'.toFinset then u' else u) := by
  have hpr : ∃ out, propose n mp g p r = .ok out := by
    unfold propose
    rw [hI.graph.hasEdge]
    by_cases hpu : p ∈ u
    · exact ⟨_, by simp only [hpu, decide_true, if_true]; rfl⟩
    · simp only [hpu, decide_false, Bool.false_eq_true, if_false]
      cases mp with
      | none => exact ⟨_, rfl⟩
      | some k =>
        obtain ⟨ps, h1, h2⟩ := hI.graph.parents hI.nodup hI.key
        simp only [h1, Except.bind_ok']
        by_cases hk2 : k ≤ ps.length
        · simp only [hk2, if_true]
          have hne : ps ≠ [] := by
            rintro rfl
            exact hne k rfl hpu (by rw [← h2.length_eq]; exact hk2) (List.nil_perm.1 h2)
          obtain ⟨x, _, hx⟩ := choice_ok hne r
          exact ⟨_, by simp only [hx, Except.bind_ok']; rfl⟩
        · exact ⟨_, by simp only [hk2, if_false, Except.bind_ok']; rfl⟩
  obtain ⟨⟨g1, added, removed⟩, hpr⟩ := hpr
  obtain ⟨u', hP, hg1, hadd⟩ := propose_spec (E := byScore s rm f) hI.graph hI.nodup hI.key hn hp hpr
  simp only at hP hg1 hadd
  rw [hadd] at hpr
  obtain ⟨g', h1, h2⟩ := tryMove_of_propose (best := best) hR hI hn hpn hpr hP hg1
  exact ⟨g', u', removed, h1, hP, h2⟩

/-- Any parent can be the one exchanged. -/
theorem step_swap (hR : SearchReady (byScore s rm f)) {g : NetworkGraph} {u : List Label} (hI : AInv s n g u)
    (hn : n ∈ s.labels) {p q : Label} (hp : p ∈ s.labels) (hpn : p ≠ n) {k : ℤ} (hpu : p ∉ u) (hk : k ≤ u.length) (hq : q ∈ u) (best : ℤ) :
    ∃ r g', (byScore s rm f).tryMove n (some k) g best p r =
        .ok (g', decide (best < f (p :: u.erase q).toFinset), f (p :: u.erase q).toFinset) ∧
      AInv s n g' (if best < f (p :: u.erase q).toFinset then p :: u.erase q else u) := by
  obtain ⟨ps, h1, h2⟩ := hI.graph.parents hI.nodup hI.key
  obtain ⟨r, hr⟩ := choice_surj (h2.mem_iff.2 hq)
  have hrem := hI.graph.remove (p := q) (u' := u.erase q) (fun x => by rw [hI.nodup.mem_erase_iff]; tauto)
  have hg1 : SGraph s n (p :: u.erase q) ((g.removeEdges [(q, n)]).addEdges [(p, n)]) :=
    hrem.add hn hp (fun x => by rw [List.mem_cons]; tauto)
  have hpr : propose n (some k) g p r = .ok ((g.removeEdges [(q, n)]).addEdges [(p, n)], decide (p ∉ u), some q) := by
    unfold propose
    rw [hI.graph.hasEdge]
    simp only [hpu, decide_false, Bool.false_eq_true, if_false, h1, Except.bind_ok']
    rw [h2.length_eq, if_pos hk, hr]
    simp only [Except.bind_ok']
    simp [pure, Except.pure]
  exact ⟨r, tryMove_of_propose hR hI hn hpn hpr (.swap q k hpu rfl hk hq) hg1⟩

theorem step_add (hR : SearchReady (byScore s rm f)) {g : NetworkGraph} {u : List Label} (hI : AInv s n g u)
    (hn : n ∈ s.labels) {p : Label} (hp : p ∈ s.labels) (hpn : p ≠ n) (hpu : p ∉ u) (hk : ∀ k, mp = some k → (u.length : ℤ) < k)
    (best : ℤ) (r : Nat) :
    ∃ g', (byScore s rm f).tryMove n mp g best p r = .ok (g', decide (best < f (p :: u).toFinset), f (p :: u).toFinset) ∧
      AInv s n g' (if best < f (p :: u).toFinset then p :: u else u) := by
  obtain ⟨g', u', d, h1, h2, h3⟩ := step_ok (mp := mp) hR hI hn hp hpn (fun k hk1 _ hk2 => by have := hk k hk1; omega) best r
  cases h2 with
  | remove h => exact absurd h hpu
  | add _ _ => exact ⟨g', h1, h3⟩
  | swap q k _ hk1 hk2 _ => have := hk k hk1; omega

theorem step_remove (hR : SearchReady (byScore s rm f)) {g : NetworkGraph} {u : List Label} (hI : AInv s n g u)
    (hn : n ∈ s.labels) {p : Label} (hp : p ∈ s.labels) (hpn : p ≠ n) (hpu : p ∈ u) (best : ℤ) (r : Nat) :
    ∃ g', (byScore s rm f).tryMove n mp g best p r = .ok (g', decide (best < f (u.erase p).toFinset), f (u.erase p).toFinset) ∧
      AInv s n g' (if best < f (u.erase p).toFinset then u.erase p else u) := by
  obtain ⟨g', u', d, h1, h2, h3⟩ := step_ok (mp := mp) hR hI hn hp hpn (fun k _ h => absurd hpu h) best r
  cases h2 with
  | remove h => exact ⟨g', h1, h3⟩
  | add h _ => exact absurd hpu h
  | swap q k h _ _ _ => exact absurd hpu h

/-! ## Choosing the draws one by one -/

theorem hillLoop_congr {S : Type} [LinearOrder S] {E : SearchEnv S} {others : List Label} {patience : Option ℤ}
    {pick drop pick' drop' : Nat → Nat} (k i : Nat) (hp : ∀ x, i ≤ x → pick x = pick' x) (hd : ∀ x, i ≤ x → drop x = drop' x)
    (g : NetworkGraph) (best : S) (count : Nat) (log : List S) :
    E.hillLoop n others mp patience pick drop k i g best count log = E.hillLoop n others mp patience pick' drop' k i g best count log := by
  induction k generalizing i g best count log with
  | zero => rfl
  | succ k ih =>
    rw [hillLoop, hillLoop, hp i le_rfl, hd i le_rfl]
    have := ih (i + 1) (fun x hx => hp x (by omega)) (fun x hx => hd x (by omega))
    simp only [this]

theorem hill_exists_step {S : Type} [LinearOrder S] {E : SearchEnv S} {others : List Label} {patience : Option ℤ} {r r' : Nat} {p : Label}
    {k i : Nat} {g : NetworkGraph} {best : S} {count : Nat} {log : List S} {g' : NetworkGraph} {imp : Bool} {v : S}
    {P : Py (NetworkGraph × List S) → Prop}
    (hc : choice others r = .ok p) (ht : E.tryMove n mp g best p r' = .ok (g', imp, v))
    (hstop : outOfPatience patience (if imp then 0 else count + 1) = true → P (.ok (g', log ++ [v])))
    (hgo : outOfPatience patience (if imp then 0 else count + 1) = false →
      ∃ pick drop, P (E.hillLoop n others mp patience pick drop k (i + 1) g' (if imp then v else best) (if imp then 0 else count + 1) (log ++ [v]))) :
    ∃ pick drop, P (E.hillLoop n others mp patience pick drop (k + 1) i g best count log) := by
  cases ho : outOfPatience patience (if imp then 0 else count + 1) with
  | true =>
    refine ⟨fun _ => r, fun _ => r', ?_⟩
    rw [hillLoop]
    simp only [hc, Except.bind_ok', ht, ho, if_true]
    exact hstop ho
  | false =>
    obtain ⟨pick, drop, h⟩ := hgo ho
    refine ⟨Function.update pick i r, Function.update drop i r', ?_⟩
    rw [hillLoop]
    simp only [Function.update_self, hc, Except.bind_ok', ht, ho, Bool.false_eq_true, if_false]
    rw [hillLoop_congr (pick' := pick) (drop' := drop) k (i + 1)]
    · exact h
    · intro x hx; rw [Function.update_of_ne (by omega)]
    · intro x hx; rw [Function.update_of_ne (by omega)]

theorem tabuLoop_congr {S : Type} [LinearOrder S] {E : SearchEnv S} {others : List Label} {patience : Option ℤ} {length duration : ℤ}
    {pick drop pick' drop' : Nat → Nat} (k i : Nat) (hp : ∀ x, i ≤ x → pick x = pick' x) (hd : ∀ x, i ≤ x → drop x = drop' x)
    (g : NetworkGraph) (best : S) (count : Nat) (q t : List Label) (tc : Nat) (log : List (TabuStep S)) :
    E.tabuLoop n others mp patience length duration pick drop k i g best count q t tc log =
      E.tabuLoop n others mp patience length duration pick' drop' k i g best count q t tc log := by
  induction k generalizing i g best count q t tc log with
  | zero => rfl
  | succ k ih =>
    rw [tabuLoop, tabuLoop, hp i le_rfl, hd i le_rfl]
    have := ih (i + 1) (fun x hx => hp x (by omega)) (fun x hx => hd x (by omega))
    simp only [this]

theorem tabu_exists_step {S : Type} [LinearOrder S] {E : SearchEnv S} {others : List Label} {patience : Option ℤ} {length duration : ℤ}
    {r r' : Nat} {p : Label} {k i : Nat} {g : NetworkGraph} {best : S} {count : Nat} {q t : List Label} {tc : Nat} {log : List (TabuStep S)}
    {g' : NetworkGraph} {imp : Bool} {v : S} {q1 t1 q2 t2 : List Label} {tc' : Nat}
    {P : Py (NetworkGraph × List (TabuStep S)) → Prop}
    (hc : tabuPick others q t r = .ok (p, q1, t1)) (ht : E.tryMove n mp g best p r' = .ok (g', imp, v))
    (hu : tabuUpdate length duration q1 t1 p tc = .ok (q2, t2, tc'))
    (hstop : outOfPatience patience (if imp then 0 else count + 1) = true → P (.ok (g', log ++ [⟨p, q, v⟩])))
    (hgo : outOfPatience patience (if imp then 0 else count + 1) = false →
      ∃ pick drop, P (E.tabuLoop n others mp patience length duration pick drop k (i + 1) g' (if imp then v else best)
        (if imp then 0 else count + 1) q2 t2 tc' (log ++ [⟨p, q, v⟩]))) :
    ∃ pick drop, P (E.tabuLoop n others mp patience length duration pick drop (k + 1) i g best count q t tc log) := by
  cases ho : outOfPatience patience (if imp then 0 else count + 1) with
  | true =>
    refine ⟨fun _ => r, fun _ => r', ?_⟩
    rw [tabuLoop]
    simp only [hc, Except.bind_ok', ht, hu, ho, if_true]
    exact hstop ho
  | false =>
    obtain ⟨pick, drop, h⟩ := hgo ho
    refine ⟨Function.update pick i r, Function.update drop i r', ?_⟩
    rw [tabuLoop]
    simp only [Function.update_self, hc, Except.bind_ok', ht, hu, ho, Bool.false_eq_true, if_false]
    rw [tabuLoop_congr (pick' := pick) (drop' := drop) k (i + 1)]
    · exact h
    · intro x hx; rw [Function.update_of_ne (by omega)]
    · intro x hx; rw [Function.update_of_ne (by omega)]

end SearchEnv
end PyCTBN
