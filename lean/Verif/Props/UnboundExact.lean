import Verif.Props.CtpcReturns

/-! # Exactly which calls of `complete_test` fail with an unbound variable (C107) -/

namespace PyCTBN
open Spec Indep

namespace Spec

/-- The sets of labels for which the estimates of the child are remembered after a sequence of tests of `p` given `S`: a test for which
`S ∪ {p}` is remembered and `S` is not adds nothing (it fails), every other one leaves both remembered. -/
def remembered (calls : List TestCall) : Finset (Finset Label) :=
  calls.foldl (fun C k =>
    if insert k.parent k.sepSet.toFinset ∈ C ∧ k.sepSet.toFinset ∉ C then C
    else insert (insert k.parent k.sepSet.toFinset) (insert k.sepSet.toFinset C)) ∅

end Spec

namespace CBEnv
variable {E : CBEnv}

/-- A test on a coherent cache when the estimates exist: the unbound variable and the cache it leaves, exactly. -/
theorem verdict_exact {p child : Label} {S : List Label} (h : E.TestArgs p child S) {cache : Cache SetOfCims}
    (hco : E.Coherent child cache) (c : Nat) {v1 v2 : SetOfCims} (h1 : E.direct child S.toFinset = .ok v1)
    (h2 : E.direct child (p :: S).toFinset = .ok v2) :
    ((cache.Has (p :: S).toFinset ∧ ¬ cache.Has S.toFinset) ∧ E.verdict cache p child S c = (.error .unboundLocalError, cache)) ∨
    (¬ (cache.Has (p :: S).toFinset ∧ ¬ cache.Has S.toFinset) ∧ (E.verdict cache p child S c).1 = E.pureVerdict p child S c ∧
      ∀ K, (E.verdict cache p child S c).2.Has K ↔ cache.Has K ∨ K = (p :: S).toFinset ∨ K = S.toFinset) := by
  obtain ⟨g2, k1, k2, k3, k4, k5⟩ := direct_with h
  have k6 := direct_without h k3 k4 k5
  have hsp := verdict_spec h hco c
  by_cases hh : cache.Has (p :: S).toFinset ∧ ¬ cache.Has S.toFinset
  · left
    refine ⟨hh, ?_⟩
    unfold verdict withParent
    cases hf2 : cache.find (p :: S) with
    | none => exact absurd hh.1 (Cache.find_none.1 hf2)
    | some v =>
      simp only
      unfold withoutParent
      rw [Cache.find_none.2 hh.2]
      rfl
  · right
    have ha := hsp.answer
    refine ⟨hh, ?_, fun K => ⟨hsp.only K, ?_⟩⟩
    · rcases ha with ha | ha
      · exact ha
      · exact absurd ha.2 hh
    rintro (hK | rfl | rfl)
    · exact hsp.grows K hK
    all_goals
      clear hsp ha
      unfold verdict withParent
      cases hf2 : cache.find (p :: S) with
      | some w2 =>
        have b2 := has_of_find hf2
        have b1 : cache.Has S.toFinset := by by_contra hb; exact hh ⟨b2, hb⟩
        simp only
        unfold withoutParent
        cases hf1 : cache.find S with
        | some w1 => first | exact b2 | exact b1
        | none => exact absurd b1 (Cache.find_none.1 hf1)
      | none =>
        simp only [k1, Except.bind_ok', k2, h2, Except.pure_eq_ok']
        unfold withoutParent
        cases hf1 : (cache.put (p :: S) v2).find S with
        | some w1 => first | exact Cache.has_put.2 (Or.inr rfl) | exact has_of_find hf1
        | none =>
          simp only
          have k6' : (do
              let g ← g2.removeNode p
              let g ← g.fastInit child
              computeOn E.traj g child) = E.direct child S.toFinset := k6
          rw [k6', h1]
          first
            | exact Cache.has_put.2 (Or.inr rfl)
            | exact Cache.has_put.2 (Or.inl (Cache.has_put.2 (Or.inr rfl)))

end CBEnv

/-- With equal cardinalities the estimates given any set of labels exist. -/
theorem direct_returns {E : CBEnv} (hw : WFStructure E.struct) (htot : E.tot = E.struct.total) (hd : DataOK E.struct E.traj) {c : Nat}
    (hc : 0 < c) (hu : ∀ v ∈ E.struct.vals, v = c) {child : Label} (hch : child ∈ E.struct.labels) (K : List Label) :
    ∃ v, E.direct child K.toFinset = .ok v := by
  have hmo : ∀ l ∈ ordered E.struct K, l ∈ E.struct.labels := fun l hl => (List.mem_filter.1 hl).1
  have hd1 : E.direct child K.toFinset = estFrom E.struct E.struct.total E.traj child (ordered E.struct K) := by
    unfold CBEnv.direct ordered; rw [htot]; congr 1; apply List.filter_congr; intro l _; simp
  obtain ⟨sofc1, e1, _⟩ := estFrom_exact hw hd hch hmo (uniform_card hw hu hch) hc (uniform_cards hw hu hmo) (uniform_exact c _)
  exact ⟨sofc1, hd1.trans e1⟩

theorem remembered_append (calls : List TestCall) (k : TestCall) : remembered (calls ++ [k]) =
    if insert k.parent k.sepSet.toFinset ∈ remembered calls ∧ k.sepSet.toFinset ∉ remembered calls then remembered calls
    else insert (insert k.parent k.sepSet.toFinset) (insert k.sepSet.toFinset (remembered calls)) := by
  unfold remembered
  rw [List.foldl_append]
  rfl

theorem afterTests_append (E : CBEnv) (child : Label) (st : CBState) (calls : List TestCall) (k : TestCall) :
    afterTests E child st (calls ++ [k]) = (E.completeTest (afterTests E child st calls) k.parent child k.sepSet k.childStates k.parentIndx k.childIndx).2 := by
  unfold afterTests
  rw [List.foldl_append]
  rfl

/-- The cache holds the estimates for exactly the remembered sets. -/
theorem afterTests_has {E : CBEnv} (hw : WFStructure E.struct) (htot : E.tot = E.struct.total) (hd : DataOK E.struct E.traj) {c : Nat}
    (hc : 0 < c) (hu : ∀ v ∈ E.struct.vals, v = c) {child : Label} (hch : child ∈ E.struct.labels) (m : List (List Bool))
    (history : List TestCall) (hh : ∀ k ∈ history, ValidCall E child k) (K : Finset Label) :
    (afterTests E child ⟨[], m⟩ history).cache.Has K ↔ K ∈ remembered history := by
  induction history using List.reverseRecOn generalizing K with
  | nil => simp [afterTests, remembered, CBEnv.not_has_nil]
  | append_singleton ks k ih =>
    have ih' := ih (fun x hx => hh x (by simp [hx]))
    have hco := afterTests_coherent hw hch ks (fun x hx => hh x (by simp [hx])) ⟨[], m⟩ CBEnv.Coherent.nil
    obtain ⟨v1, h1⟩ := direct_returns hw htot hd hc hu hch k.sepSet
    obtain ⟨v2, h2⟩ := direct_returns hw htot hd hc hu hch (k.parent :: k.sepSet)
    have hv := CBEnv.verdict_exact ((hh k (by simp)).args hw hch) hco k.childStates h1 h2
    rw [remembered_append, afterTests_append, CBEnv.completeTest_eq]
    simp only
    rw [ih', ih', List.toFinset_cons] at hv
    rcases hv with ⟨a, b⟩ | ⟨a, b, b'⟩
    · rw [if_pos a, b]; exact ih' K
    · rw [if_neg a, b', ih']
      simp only [Finset.mem_insert]
      tauto

theorem independenceTest_noUB (P : IndepParams) (c : Nat) (a b : Cim) (th : Nat) : NoUB (independenceTest P c a b th) := by
  unfold independenceTest
  simp only
  split
  · exact NoUB.ok _
  · refine (noUB_anyRound (fun v => ?_) _).bind (fun b _ => ?_)
    · exact (noUB_pyGet _ _).bind (fun _ _ => (noUB_pyGet _ _).bind (fun _ _ => (noUB_pyGet _ _).bind (fun _ _ =>
        (noUB_pyGet _ _).bind (fun _ _ => NoUB.ok _))))
    · cases b
      · refine (noUB_anyRound (fun v => ?_) _).bind (fun b _ => ?_)
        · exact (noUB_pyGet _ _).bind (fun _ _ => (noUB_pyGet _ _).bind (fun _ _ => (noUB_pyGet _ _).bind (fun _ _ =>
            (noUB_pyGet _ _).bind (fun _ _ => NoUB.ok _))))
        · cases b <;> exact NoUB.ok _
      · exact NoUB.ok _

/-- **C107** On valid data whose variables have equally many states: after any tests for the same child, the test of `p` given `S` fails with
the unbound-variable error if and only if the estimates given `S ∪ {p}` are remembered and those given `S` are not.  In every other case
it answers, and as it would with an empty cache. -/
theorem test_unbound_iff {E : CBEnv} {P : IndepParams} (h2 : E.twoCim = independenceTest P) (hw : WFStructure E.struct)
    (htot : E.tot = E.struct.total) (hd : DataOK E.struct E.traj) {c : Nat} (hc : 0 < c) (hu : ∀ v ∈ E.struct.vals, v = c)
    {child : Label} (hch : child ∈ E.struct.labels) (m : List (List Bool)) (history : List TestCall)
    (hh : ∀ k ∈ history, ValidCall E child k) {k : TestCall} (hk : ValidCall E child k) :
    let st := afterTests E child ⟨[], m⟩ history
    let call := fun st => (E.completeTest st k.parent child k.sepSet k.childStates k.parentIndx k.childIndx).1
    (call st = .error .unboundLocalError ↔
      insert k.parent k.sepSet.toFinset ∈ remembered history ∧ k.sepSet.toFinset ∉ remembered history) ∧
    (call st ≠ .error .unboundLocalError → call st = call ⟨[], st.removable⟩) := by
  dsimp only
  have hco := afterTests_coherent hw hch history hh ⟨[], m⟩ CBEnv.Coherent.nil
  obtain ⟨v1, h1⟩ := direct_returns hw htot hd hc hu hch k.sepSet
  obtain ⟨v2, h2'⟩ := direct_returns hw htot hd hc hu hch (k.parent :: k.sepSet)
  have hv := CBEnv.verdict_exact (hk.args hw hch) hco k.childStates h1 h2'
  have hn : NoUB (E.pureVerdict k.parent child k.sepSet k.childStates) :=
    CBEnv.noUB_pureVerdict (fun c a b th => h2 ▸ independenceTest_noUB P c a b th) _ _ _ _
  have hhas := afterTests_has hw htot hd hc hu hch m history hh
  rw [hhas, hhas, List.toFinset_cons] at hv
  refine ⟨?_, fun hne => (test_answers_as_with_empty_cache hw hch m history hh hk).resolve_right hne⟩
  rw [CBEnv.completeTest_eq]
  simp only
  rcases hv with ⟨a, b⟩ | ⟨a, b, _⟩
  · rw [b]; exact ⟨fun _ => a, fun _ => rfl⟩
  · rw [b]
    refine ⟨fun h => absurd ?_ hn, fun h => absurd h a⟩
    cases hp : E.pureVerdict k.parent child k.sepSet k.childStates with
    | error e => rw [hp] at h; simpa using h
    | ok v =>
      rw [hp] at h
      cases v with
      | accept => simp at h
      | reject => simp at h
      | rejectMark =>
        simp only at h
        have := noUB_setFalse (afterTests E child ⟨[], m⟩ history).removable k.parentIndx k.childIndx
        cases hs : setFalse (afterTests E child ⟨[], m⟩ history).removable k.parentIndx k.childIndx with
        | error e => rw [hs] at h this; simp only [Except.error.injEq] at h; subst h; exact absurd rfl this
        | ok m' => rw [hs] at h; simp at h

namespace Demo
/-- Three histories: none; the same test again; the roles of the two variables swapped. -/
example : remembered [] = ∅ ∧
    (insert "B" ["C"].toFinset ∈ remembered [⟨"B", ["C"], 2, 1, 0⟩] ∧ ["C"].toFinset ∈ remembered [⟨"B", ["C"], 2, 1, 0⟩]) ∧
    (insert "C" ["B"].toFinset ∈ remembered [⟨"B", ["C"], 2, 1, 0⟩] ∧ ["B"].toFinset ∉ remembered [⟨"B", ["C"], 2, 1, 0⟩]) := by
  decide +kernel
end Demo

end PyCTBN
