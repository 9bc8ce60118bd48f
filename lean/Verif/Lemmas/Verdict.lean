import Verif.Lemmas.Direct

/-! A complete test on a coherent cache. -/

namespace PyCTBN
open Spec

namespace CBEnv
variable {E : CBEnv}

/-- Every cached value is what estimating afresh would give. -/
def Coherent (E : CBEnv) (child : Label) (cache : Cache SetOfCims) : Prop :=
  ∀ e ∈ cache, E.direct child e.1.toFinset = .ok e.2

theorem Coherent.nil {child : Label} : E.Coherent child [] := by intro e he; simp at he

theorem Coherent.put {child : Label} {cache : Cache SetOfCims} (h : E.Coherent child cache) {k : List Label} {v : SetOfCims}
    (hv : E.direct child k.toFinset = .ok v) : E.Coherent child (cache.put k v) := by
  intro e he
  simp only [Cache.put, List.mem_append, List.mem_singleton] at he
  rcases he with he | rfl
  · exact h e he
  · exact hv

theorem Coherent.find {child : Label} {cache : Cache SetOfCims} (h : E.Coherent child cache) {k : List Label} {v : SetOfCims}
    (hf : cache.find k = some v) : E.direct child k.toFinset = .ok v := by
  obtain ⟨e, he, hk, rfl⟩ := Cache.find_some hf
  rw [← hk]; exact h e he

/-- The test computed without any cache. -/
def pureVerdict (E : CBEnv) (p child : Label) (S : List Label) (c : Nat) : Py Verdict := do
  let sofc2 ← E.direct child (p :: S).toFinset
  let sofc1 ← E.direct child S.toFinset
  let th ← E.thumb p S c
  E.compareLoop c th sofc2 (E.cimsFilter p S) (sofc1.cims.zip sofc1.pCombs)

/-- What a complete test does to a coherent cache. -/
structure VerdictSpec (E : CBEnv) (cache : Cache SetOfCims) (p child : Label) (S : List Label) (c : Nat)
    (r : Py Verdict × Cache SetOfCims) : Prop where
  answer : r.1 = E.pureVerdict p child S c ∨
    (r.1 = .error .unboundLocalError ∧ cache.Has (p :: S).toFinset ∧ ¬ cache.Has S.toFinset)
  coherent : E.Coherent child r.2
  grows : ∀ K, cache.Has K → r.2.Has K
  only : ∀ K, r.2.Has K → cache.Has K ∨ K = (p :: S).toFinset ∨ K = S.toFinset
  both : (∃ v, r.1 = .ok v) → r.2.Has (p :: S).toFinset ∧ r.2.Has S.toFinset

theorem has_of_find {cache : Cache SetOfCims} {k : List Label} {v : SetOfCims} (h : cache.find k = some v) :
    cache.Has k.toFinset := by
  obtain ⟨e, he, hk, _⟩ := Cache.find_some h
  exact ⟨e, he, hk⟩

theorem verdict_spec {p child : Label} {S : List Label} (h : E.TestArgs p child S) {cache : Cache SetOfCims}
    (hco : E.Coherent child cache) (c : Nat) : E.VerdictSpec cache p child S c (E.verdict cache p child S c) := by
  obtain ⟨g2, k1, k2, k3, k4, k5⟩ := direct_with h
  have k6 := direct_without h k3 k4 k5
  unfold verdict withParent
  cases hf2 : cache.find (p :: S) with
  | some v2 =>
    have hd2 := hco.find hf2
    simp only
    unfold withoutParent
    cases hf1 : cache.find S with
    | some v1 =>
      have hd1 := hco.find hf1
      simp only
      refine ⟨Or.inl ?_, hco, fun _ hK => hK, fun _ hK => Or.inl hK, fun _ => ⟨has_of_find hf2, has_of_find hf1⟩⟩
      rw [pureVerdict, hd2, hd1]; rfl
    | none =>
      simp only [Except.bind_error']
      exact ⟨Or.inr ⟨rfl, has_of_find hf2, Cache.find_none.1 hf1⟩, hco, fun _ hK => hK, fun _ hK => Or.inl hK,
        fun ⟨v, hv⟩ => by simp at hv⟩
  | none =>
    simp only [k1, Except.bind_ok', k2]
    cases hd2 : E.direct child (p :: S).toFinset with
    | error e =>
      simp only [Except.bind_error']
      refine ⟨Or.inl ?_, hco, fun _ hK => hK, fun _ hK => Or.inl hK, fun ⟨v, hv⟩ => by simp at hv⟩
      rw [pureVerdict, hd2]; rfl
    | ok v2 =>
      simp only [Except.bind_ok', Except.pure_eq_ok']
      have hco2 := hco.put (k := p :: S) hd2
      unfold withoutParent
      cases hf1 : (cache.put (p :: S) v2).find S with
      | some v1 =>
        have hd1 := hco2.find hf1
        simp only
        refine ⟨Or.inl ?_, hco2, fun K hK => Cache.has_put.2 (Or.inl hK), ?_,
          fun _ => ⟨Cache.has_put.2 (Or.inr rfl), has_of_find hf1⟩⟩
        · rw [pureVerdict, hd2, hd1]; rfl
        · intro K hK
          rcases Cache.has_put.1 hK with hK | hK
          · exact Or.inl hK
          · exact Or.inr (Or.inl hK.symm)
      | none =>
        simp only
        have k6' : (do
            let g ← g2.removeNode p
            let g ← g.fastInit child
            computeOn E.traj g child) = E.direct child S.toFinset := k6
        rw [k6']
        cases hd1 : E.direct child S.toFinset with
        | error e =>
          simp only
          refine ⟨Or.inl ?_, hco2, fun K hK => Cache.has_put.2 (Or.inl hK), ?_, fun ⟨v, hv⟩ => by simp at hv⟩
          · rw [pureVerdict, hd2, hd1]; rfl
          · intro K hK
            rcases Cache.has_put.1 hK with hK | hK
            · exact Or.inl hK
            · exact Or.inr (Or.inl hK.symm)
        | ok v1 =>
          simp only
          refine ⟨Or.inl ?_, hco2.put (k := S) hd1, fun K hK => Cache.has_put.2 (Or.inl (Cache.has_put.2 (Or.inl hK))), ?_,
            fun _ => ⟨Cache.has_put.2 (Or.inl (Cache.has_put.2 (Or.inr rfl))), Cache.has_put.2 (Or.inr rfl)⟩⟩
          · rw [pureVerdict, hd2, hd1]; rfl
          · intro K hK
            rcases Cache.has_put.1 hK with hK | hK
            · rcases Cache.has_put.1 hK with hK | hK
              · exact Or.inl hK
              · exact Or.inr (Or.inl hK.symm)
            · exact Or.inr (Or.inr hK.symm)

theorem not_has_nil {K : Finset Label} : ¬ Cache.Has ([] : Cache SetOfCims) K := by
  rintro ⟨e, he, _⟩; simp at he

/-- On an empty cache the answer is the one computed without cache. -/
theorem verdict_nil {p child : Label} {S : List Label} (h : E.TestArgs p child S) (c : Nat) :
    (E.verdict [] p child S c).1 = E.pureVerdict p child S c := by
  rcases (verdict_spec h Coherent.nil c).answer with h1 | h1
  · exact h1
  · exact absurd h1.2.1 not_has_nil

end CBEnv
end PyCTBN
