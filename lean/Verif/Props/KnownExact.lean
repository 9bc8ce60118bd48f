import Verif.Props.SearchExact
import Verif.Props.Ranking

/-!
# C119: exactly when score-based estimation keeps the known edges
-/

namespace PyCTBN
open Spec SearchEnv

/-- `scoreBy` with a function of its own for every node. -/
def scoreByNode (F : Label → Finset Label → ℤ) (n : Label) (g : NetworkGraph) : Py ℤ := scoreBy (F n) n g

theorem sameRanking_rfl {S : Type} [LinearOrder S] {s : Structure} {n : Label} {sc : NetworkGraph → Py S} : SameRanking s n sc sc where
  fails := fun _ _ _ => Iff.rfl
  ranks := by
    intro g h _ _ a b a' b' h1 h2 h3 h4
    rw [h1] at h3; rw [h2] at h4
    cases h3; cases h4; exact Iff.rfl

/-- **C119.**  For sane arguments (`max_parents` unset or positive, patience not negative, a tabu list that can hold something) and known edges
that leave every variable a free candidate parent: score-based estimation with either optimizer keeps all known edges, whatever the scores of the
parent sets, the random draws and the completion order, if and only if `iterations_number` is 0, or `max_parents` is unset, or for every variable with a
known parent it is at least the number of other variables or at least the number of its known parents plus `iterations_number`. -/
theorem score_based_keeps_known_iff {s : Structure} {R : List (List Bool)} {known : List Edge} (hS : SearchInput s.cleanEdges R known)
    {a : SBArgs} (ha : SaneArgs a) (hpat : ∀ k, a.patience = some k → 0 ≤ k) (hfree : ∀ n ∈ s.labels, (freeParents s known n).Nonempty)
    (complete : DiGraph) :
    (∀ (F : Label → Finset Label → ℤ) (order : Option (List Label)) (pick drop : Label → Nat → Nat) (es : Finset Edge) (rep : Option (ℚ × ℚ))
        (e' : Estimator), (∀ o, order = some o → o.Perm s.labels) →
        estimateStructure (scoreByNode F) R ⟨s, complete⟩ a order pick drop = (.ok (es, rep), e') → ∀ x ∈ known, x ∈ es) ↔
      (a.iterations = 0 ∨ ∀ k, a.maxParents = some k → ∀ n ∈ s.labels, parentsIn known n ≠ ∅ →
        (s.labels.length : ℤ) - 1 ≤ k ∨ ((parentsIn known n).card : ℤ) + a.iterations ≤ k) := by
  -- one node
  have hnode : ∀ n ∈ s.labels, (∀ (f : Finset Label → ℤ) (pick drop : Nat → Nat) (es : List Edge),
      estimateParents ⟨s.cleanEdges, R, scoreBy f⟩ a pick drop n = .ok es → ∀ p, (p, n) ∈ known → (p, n) ∈ es) ↔
      (parentsIn known n = ∅ ∨ a.iterations = 0 ∨ ∀ k, a.maxParents = some k →
        (s.labels.length : ℤ) - 1 ≤ k ∨ ((parentsIn known n).card : ℤ) + a.iterations ≤ k) := by
    intro n hn
    have hf : freeParents s.cleanEdges known n ≠ ∅ := Finset.nonempty_iff_ne_empty.1 (hfree n hn)
    by_cases ht : a.optimizer = "tabu"
    · have := tabu_keeps_known_iff (n := n) (mp := a.maxParents) (iterations := a.iterations) hS hn hpat ha.tabuLength ha.tabuDuration
      simp only [hf, false_or] at this
      rw [show s.labels = s.cleanEdges.labels from rfl, ← this]
      unfold estimateParents
      simp only [if_pos ht]
      constructor
      · intro h f pick drop es start steps hr
        exact h f pick drop es (by rw [hr]; rfl)
      · intro h f pick drop es hr
        cases hx : SearchEnv.tabu ⟨s.cleanEdges, R, scoreBy f⟩ n a.maxParents a.iterations a.patience a.tabuLength a.tabuDuration pick drop with
        | error e => rw [hx] at hr; cases hr
        | ok o =>
          rw [hx] at hr
          obtain ⟨o1, o2, o3⟩ := o
          cases hr
          exact h f pick drop _ _ _ hx
    · have := hill_keeps_known_iff (n := n) (mp := a.maxParents) (iterations := a.iterations) hS hn hpat
      simp only [hf, false_or] at this
      rw [show s.labels = s.cleanEdges.labels from rfl, ← this]
      unfold estimateParents
      simp only [if_neg ht]
      constructor
      · intro h f pick drop es log hr
        exact h f pick drop es (by rw [hr]; rfl)
      · intro h f pick drop es hr
        cases hx : SearchEnv.hill ⟨s.cleanEdges, R, scoreBy f⟩ n a.maxParents a.iterations a.patience pick drop with
        | error e => rw [hx] at hr; cases hr
        | ok o =>
          rw [hx] at hr
          obtain ⟨o1, o2⟩ := o
          cases hr
          exact h f pick drop _ _ hx
  constructor
  · intro H
    by_contra hcon
    push Not at hcon
    obtain ⟨c1, k, c2, n, hn, c3, c4, c5⟩ := hcon
    have hbad := (hnode n hn).not.2 (by
      push Not
      exact ⟨c3, c1, k, c2, c4, c5⟩)
    push Not at hbad
    obtain ⟨f, pick, drop, es, hr, p, hp, hpe⟩ := hbad
    have hready : SearchReady (⟨s.cleanEdges, R, scoreBy f⟩ : SearchEnv ℤ) := ⟨hS.wf, rfl⟩
    have hknown : KnownEdges (⟨s.cleanEdges, R, scoreBy f⟩ : SearchEnv ℤ) known := ⟨hS.indexed, hS.built, hS.noLoop⟩
    have key : ∀ m ∈ s.labels, ∃ r, nodeResult (scoreByNode (fun _ => f)) R ⟨s, complete⟩ a (fun _ => pick) (fun _ => drop) m = .ok r := by
      intro m hm
      have hs : Scorable (⟨s.cleanEdges, R, scoreBy f⟩ : SearchEnv ℤ) m := fun g g' _ _ => ⟨_, rfl⟩
      show ∃ r, estimateParents ⟨s.cleanEdges, R, scoreBy f⟩ a pick drop m = .ok r
      unfold estimateParents
      split
      · obtain ⟨es, st, steps, h⟩ := tabu_never_blocks_partial (iterations := a.iterations) (patience := a.patience) (pick := pick)
          (drop := drop) hready hknown hm hs ha.maxParents (hfree m hm) ha.tabuLength ha.tabuDuration
        exact ⟨es, by rw [h]; rfl⟩
      · obtain ⟨es, log, h⟩ := hill_returns_partial (iterations := a.iterations) (patience := a.patience) (pick := pick)
          (drop := drop) hready hknown hm hs ha.maxParents (hfree m hm)
        exact ⟨es, by rw [h]; rfl⟩
    obtain ⟨out, rep, e', h, -⟩ := (estimate_returns_iff_nodes (e := ⟨s, complete⟩)).2 key
    have hin := H (fun _ => f) none (fun _ => pick) (fun _ => drop) out rep e' (by intro o h; cases h) h _ hp
    obtain ⟨-, h2⟩ := estimate_is_union (by intro o h; cases h) h
    obtain ⟨m, hm, r, hr', hx⟩ := (h2 _).1 hin
    have hwf : WFStructure (⟨s, complete⟩ : Estimator).struct := ⟨hS.wf.nodup, hS.wf.idxLen, hS.wf.valLen⟩
    have hmn : n = m := ((nodeResult_spec (known := known) hwf hknown hr').2.1 (p, n) hx).1
    subst hmn
    have : nodeResult (scoreByNode (fun _ => f)) R ⟨s, complete⟩ a (fun _ => pick) (fun _ => drop) n = .ok es := hr
    rw [this] at hr'
    cases hr'
    exact hpe hx
  · intro hB F order pick drop es rep e' ho h
    obtain ⟨k1, k2⟩ := estimate_is_union ho h
    rintro ⟨p, n⟩ hx
    have hn : n ∈ s.labels := by
      obtain ⟨i, j, h1, h2, h3, h4⟩ := (removable_matrix_built_iff _ known).1 ⟨_, hS.built⟩ _ hx
      by_contra hne
      unfold Structure.getNodeIndx at h2
      rw [pyIndex_of_not_mem (show (p, n).2 ∉ s.cleanEdges.labels from hne)] at h2
      simp at h2
    obtain ⟨r, hr⟩ := k1 n hn
    have hr1 : estimateParents ⟨s.cleanEdges, R, scoreBy (F n)⟩ a (pick n) (drop n) n = .ok r := by
      rw [← hr]
      exact estimateParents_ranking hS (sameRanking_rfl (sc := scoreBy (F n) n))
    refine (k2 _).2 ⟨n, hn, r, hr, (hnode n hn).2 ?_ (F n) (pick n) (drop n) r hr1 p hx⟩
    rcases hB with hB | hB
    · exact .inr (.inl hB)
    · by_cases h0 : parentsIn known n = ∅
      · exact .inl h0
      · exact .inr (.inr (fun k hk => hB k hk n hn h0))

/-- Concrete instance: three variables, `Y → X` known.  With the default arguments it is kept; with `max_parents = 1` and one iteration some
scores and draws lose it. -/
example : (∀ F order pick drop es rep e', (∀ o, order = some o → o.Perm demoSearch.struct.labels) →
      estimateStructure (scoreByNode F) demoSearch.removable ⟨demoSearch.struct, DiGraph.empty⟩ defaultArgs order pick drop = (.ok (es, rep), e') →
      ∀ x ∈ demoKnown, x ∈ es) ∧
    ∃ F order pick drop es rep e', (∀ o, order = some o → o.Perm demoSearch.struct.labels) ∧
      estimateStructure (scoreByNode F) demoSearch.removable ⟨demoSearch.struct, DiGraph.empty⟩ ⟨some 1, 1, none, none, none, "hill"⟩ order pick drop
        = (.ok (es, rep), e') ∧ ∃ x ∈ demoKnown, x ∉ es := by
  have hfree : ∀ n ∈ demoSearch.struct.labels, (freeParents demoSearch.struct demoKnown n).Nonempty := by decide
  constructor
  · exact (score_based_keeps_known_iff (s := demoSearch.struct) demo_searchInput ⟨by simp [defaultArgs], by simp [defaultArgs], by simp [defaultArgs]⟩
      (by simp [defaultArgs]) hfree _).2 (.inr (by simp [defaultArgs]))
  · have h := (score_based_keeps_known_iff (s := demoSearch.struct) (a := ⟨some 1, 1, none, none, none, "hill"⟩) demo_searchInput
      ⟨by simp, by simp, by simp⟩ (by simp) hfree DiGraph.empty).not.2 (by
        rintro (h | h)
        · simp at h
        · have := h 1 rfl "X" (by decide) (by decide)
          rw [show (parentsIn demoKnown "X").card = 1 by decide] at this
          simp [demoSearch] at this)
    push Not at h
    obtain ⟨F, order, pick, drop, es, rep, e', h1, h2, x, h3, h4⟩ := h
    exact ⟨F, order, pick, drop, es, rep, e', h1, h2, x, h3, h4⟩

end PyCTBN
