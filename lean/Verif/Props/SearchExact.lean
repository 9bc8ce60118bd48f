import Verif.Lemmas.Adversary

/-!
# Exact boundaries of the searches (C101-C104)

When do hill climbing and tabu search keep the known edges, and when do they return, whatever the score and the random draws?
-/

namespace PyCTBN
open Spec SearchEnv

variable {s : Structure} {rm : List (List Bool)} {known : List Edge} {n : Label} {mp : Option ℤ} {patience : Option ℤ} {iterations : Nat}

/-! ## Keeping known edges: the loops -/

/-- The score of the adversary: how many parents were not known. -/
def newParents (prior : List Label) (U : Finset Label) : ℤ := ((U.filter (fun x => x ∉ prior)).card : ℤ)

theorem newParents_cons {prior u : List Label} {p : Label} (hp : p ∉ u) (hpp : p ∉ prior) :
    newParents prior (p :: u).toFinset = newParents prior u.toFinset + 1 := by
  unfold newParents
  rw [List.toFinset_cons, Finset.filter_insert, if_pos hpp, Finset.card_insert_of_notMem (by simp [hp])]
  push_cast; ring

theorem newParents_erase_known {prior u : List Label} {q : Label} (hu : u.Nodup) (hq : q ∈ prior) :
    newParents prior (u.erase q).toFinset = newParents prior u.toFinset := by
  unfold newParents
  congr 2
  ext x
  simp only [Finset.mem_filter, List.mem_toFinset, hu.mem_erase_iff]
  constructor
  · rintro ⟨⟨-, h⟩, h'⟩; exact ⟨h, h'⟩
  · rintro ⟨h, h'⟩; exact ⟨⟨fun e => h' (e ▸ hq), h⟩, h'⟩

theorem ne_nil_of_newParents {prior u : List Label} (h : 1 ≤ newParents prior u.toFinset) : u ≠ [] := by
  rintro rfl; simp [newParents] at h

/-- One move after a known parent was lost. -/
theorem lost_step {prior others : List Label} {q : Label} (hS : SearchInput s rm known) (hn : n ∈ s.labels)
    (ho : ∀ p ∈ others, p ∈ s.labels ∧ p ≠ n ∧ p ∉ prior) (hq : q ∈ prior) {g : NetworkGraph} {u : List Label} (hI : AInv s n g u)
    (hqu : q ∉ u) (h1 : 1 ≤ newParents prior u.toFinset) {p : Label} (hp : p ∈ others) (r : Nat) :
    ∃ g' u' imp v, (byScore s rm (newParents prior)).tryMove n mp g (newParents prior u.toFinset) p r = .ok (g', imp, v) ∧
      AInv s n g' u' ∧ q ∉ u' ∧ 1 ≤ newParents prior u'.toFinset ∧ (if imp then v else newParents prior u.toFinset) = newParents prior u'.toFinset := by
  obtain ⟨o1, o2, o3⟩ := ho p hp
  obtain ⟨g', u', d, k1, k2, k3⟩ := step_ok (mp := mp) (f := newParents prior) (byScore_ready hS) hI hn o1 o2
    (fun k _ _ _ => ne_nil_of_newParents h1) (newParents prior u.toFinset) r
  have hqu' : q ∉ u' := by
    have hqp : q ≠ p := fun e => o3 (e ▸ hq)
    cases k2 with
    | remove _ => exact fun h => hqu (List.erase_subset h)
    | add _ _ => exact fun h => (List.mem_cons.1 h).elim hqp hqu
    | swap x k _ _ _ _ => exact fun h => (List.mem_cons.1 h).elim hqp (fun h => hqu (List.erase_subset h))
  by_cases hb : newParents prior u.toFinset < newParents prior u'.toFinset
  · rw [if_pos hb] at k3
    exact ⟨g', u', _, _, k1, k3, hqu', by omega, by simp [hb]⟩
  · rw [if_neg hb] at k3
    exact ⟨g', u, _, _, k1, k3, hqu, h1, by simp [hb]⟩

/-- After a known parent was lost, hill climbing returns without it, whatever the draws. -/
theorem hill_lost {prior others : List Label} {q : Label} (hS : SearchInput s rm known) (hn : n ∈ s.labels)
    (ho : ∀ p ∈ others, p ∈ s.labels ∧ p ≠ n ∧ p ∉ prior) (hne : others ≠ []) (hq : q ∈ prior) (pick drop : Nat → Nat)
    (k i : Nat) (g : NetworkGraph) (u : List Label) (count : Nat) (log : List ℤ) (hI : AInv s n g u) (hqu : q ∉ u)
    (h1 : 1 ≤ newParents prior u.toFinset) :
    ∃ g' log' u', (byScore s rm (newParents prior)).hillLoop n others mp patience pick drop k i g (newParents prior u.toFinset) count log
      = .ok (g', log') ∧ AInv s n g' u' ∧ q ∉ u' := by
  induction k generalizing i g u count log with
  | zero => exact ⟨g, log, u, rfl, hI, hqu⟩
  | succ k ih =>
    obtain ⟨p, hp, hc⟩ := choice_ok hne (pick i)
    obtain ⟨g', u', imp, v, k1, k2, k3, k4, k5⟩ := lost_step (mp := mp) hS hn ho hq hI hqu h1 hp (drop i)
    rw [hillLoop]
    simp only [hc, Except.bind_ok', k1]
    by_cases hout : outOfPatience patience (if imp = true then 0 else count + 1) = true
    · rw [if_pos hout]; exact ⟨g', _, u', rfl, k2, k3⟩
    · rw [if_neg hout, k5]; exact ih _ _ _ _ _ k2 k3 k4

/-- The adversary makes hill climbing lose a known parent. -/
theorem hill_can_lose {prior others : List Label} {q : Label} {K : ℤ} (hS : SearchInput s rm known) (hn : n ∈ s.labels)
    (ho : ∀ p ∈ others, p ∈ s.labels ∧ p ≠ n ∧ p ∉ prior) (hall : ∀ p ∈ s.labels, p ≠ n → p ∈ prior ∨ p ∈ others) (hne : others ≠ [])
    (hq : q ∈ prior) (hK : K + 1 < s.labels.length) (hpat : ∀ k, patience = some k → 0 ≤ k)
    (k i : Nat) (g : NetworkGraph) (u : List Label) (count : Nat) (log : List ℤ) (hI : AInv s n g u) (hpu : ∀ p ∈ prior, p ∈ u)
    (hu : u.length + 1 < s.labels.length) (hk : K - u.length < k) (hk1 : 0 < k) :
    ∃ pick drop g' log' u', (byScore s rm (newParents prior)).hillLoop n others (some K) patience pick drop k i g
      (newParents prior u.toFinset) count log = .ok (g', log') ∧ AInv s n g' u' ∧ q ∉ u' := by
  induction k generalizing i g u count log with
  | zero => omega
  | succ k ih =>
    -- a candidate that is not yet a parent
    obtain ⟨p, hp, hpu'⟩ : ∃ p ∈ others, p ∉ u := by
      by_contra hcon
      push Not at hcon
      have hsub : s.labels.erase n ⊆ u := by
        intro x hx
        obtain ⟨x1, x2⟩ := (hS.wf.nodup.mem_erase_iff).1 hx
        rcases hall x x2 x1 with h | h
        · exact hpu x h
        · exact hcon x h
      have := ((hS.wf.nodup.erase n).subperm hsub).length_le
      rw [List.length_erase_of_mem hn] at this
      omega
    obtain ⟨o1, o2, o3⟩ := ho p hp
    obtain ⟨r, hr⟩ := choice_surj hp
    have hrej : outOfPatience patience 0 = false := by
      cases patience with
      | none => rfl
      | some x => have := hpat x rfl; simp [outOfPatience, this]
    by_cases hfull : K ≤ u.length
    · obtain ⟨r', g', k1, k2⟩ := step_swap (f := newParents prior) (byScore_ready hS) hI hn o1 o2 hpu' hfull (hpu q hq)
        (newParents prior u.toFinset)
      have hval : newParents prior (p :: u.erase q).toFinset = newParents prior u.toFinset + 1 := by
        rw [newParents_cons (fun h => hpu' (List.erase_subset h)) o3, newParents_erase_known hI.nodup hq]
      have hlt : newParents prior u.toFinset < newParents prior (p :: u.erase q).toFinset := by omega
      simp only [hlt, decide_true, if_true] at k1 k2
      have hnn : 0 ≤ newParents prior u.toFinset := by unfold newParents; omega
      have hqp : q ≠ p := fun e => o3 (e ▸ hq)
      have := hill_exists_step (E := byScore s rm (newParents prior)) (patience := patience) (k := k) (i := i) (count := count) (log := log)
        (P := fun res => ∃ g' log' u', res = .ok (g', log') ∧ AInv s n g' u' ∧ q ∉ u') hr k1
        (fun h => by simp [hrej] at h)
        (fun _ => ⟨fun _ => 0, fun _ => 0, by
          simp only [if_true]
          exact hill_lost hS hn ho hne hq _ _ k (i + 1) g' _ 0 _ k2
            (fun h => (List.mem_cons.1 h).elim hqp (fun h => ((hI.nodup.mem_erase_iff).1 h).1 rfl)) (by omega)⟩)
      exact this
    · obtain ⟨g', k1, k2⟩ := step_add (mp := some K) (f := newParents prior) (byScore_ready hS) hI hn o1 o2 hpu'
        (fun k hk => by cases hk; omega) (newParents prior u.toFinset) 0
      have hval := newParents_cons (prior := prior) hpu' o3
      have hlt : newParents prior u.toFinset < newParents prior (p :: u).toFinset := by omega
      simp only [hlt, decide_true, if_true] at k1 k2
      have := hill_exists_step (E := byScore s rm (newParents prior)) (patience := patience) (k := k) (i := i) (count := count) (log := log)
        (P := fun res => ∃ g' log' u', res = .ok (g', log') ∧ AInv s n g' u' ∧ q ∉ u') hr k1
        (fun h => by simp [hrej] at h)
        (fun _ => by
          simp only [if_true]
          exact ih (i + 1) g' (p :: u) 0 _ k2 (fun x hx => List.mem_cons_of_mem _ (hpu x hx)) (by rw [List.length_cons]; omega)
            (by rw [List.length_cons]; push_cast; push_cast at hk; omega) (by push_cast at hk; omega))
      exact this

/-- Too few iterations for an exchange: the known parents stay. -/
theorem keep_step {f : Finset Label → ℤ} {prior others : List Label} (hS : SearchInput s rm known) (hn : n ∈ s.labels)
    (ho : ∀ p ∈ others, p ∈ s.labels ∧ p ≠ n ∧ p ∉ prior) {g : NetworkGraph} {u : List Label} (hI : AInv s n g u) (hpu : ∀ p ∈ prior, p ∈ u)
    (hk : ∀ k, mp = some k → (u.length : ℤ) < k) {p : Label} (hp : p ∈ others) {best : ℤ} {r : Nat} {out : NetworkGraph × Bool × ℤ}
    (h : (byScore s rm f).tryMove n mp g best p r = .ok out) :
    ∃ u', AInv s n out.1 u' ∧ (∀ p ∈ prior, p ∈ u') ∧ u'.length ≤ u.length + 1 := by
  obtain ⟨o1, o2, o3⟩ := ho p hp
  by_cases hpu' : p ∈ u
  · obtain ⟨g', k1, k2⟩ := step_remove (mp := mp) (f := f) (byScore_ready hS) hI hn o1 o2 hpu' best r
    rw [k1, Except.ok.injEq] at h
    subst h
    refine ⟨_, k2, ?_, ?_⟩
    · split
      · exact fun x hx => (hI.nodup.mem_erase_iff).2 ⟨fun e => o3 (e ▸ hx), hpu x hx⟩
      · exact hpu
    · split
      · have := List.length_erase_le (a := p) (l := u); omega
      · omega
  · obtain ⟨g', k1, k2⟩ := step_add (mp := mp) (f := f) (byScore_ready hS) hI hn o1 o2 hpu' hk best r
    rw [k1, Except.ok.injEq] at h
    subst h
    refine ⟨_, k2, ?_, ?_⟩
    · split
      · exact fun x hx => List.mem_cons_of_mem _ (hpu x hx)
      · exact hpu
    · split
      · simp
      · omega

theorem hill_keep_few {f : Finset Label → ℤ} {prior others : List Label} {pick drop : Nat → Nat} (hS : SearchInput s rm known)
    (hn : n ∈ s.labels) (ho : ∀ p ∈ others, p ∈ s.labels ∧ p ≠ n ∧ p ∉ prior)
    (k i : Nat) (g : NetworkGraph) (u : List Label) (best : ℤ) (count : Nat) (log : List ℤ) (hI : AInv s n g u) (hpu : ∀ p ∈ prior, p ∈ u)
    (hk : ∀ K, mp = some K → (u.length : ℤ) + k ≤ K) {g' : NetworkGraph} {log' : List ℤ}
    (h : (byScore s rm f).hillLoop n others mp patience pick drop k i g best count log = .ok (g', log')) :
    ∃ u', AInv s n g' u' ∧ ∀ p ∈ prior, p ∈ u' := by
  induction k generalizing i g u best count log with
  | zero =>
    simp only [hillLoop, Except.ok.injEq, Prod.mk.injEq] at h
    obtain ⟨rfl, rfl⟩ := h
    exact ⟨u, hI, hpu⟩
  | succ k ih =>
    rw [hillLoop] at h
    cases hc : choice others (pick i) with
    | error e => rw [hc] at h; simp at h
    | ok p =>
      rw [hc] at h
      simp only [Except.bind_ok'] at h
      cases ht : (byScore s rm f).tryMove n mp g best p (drop i) with
      | error e => rw [ht] at h; simp at h
      | ok out =>
        obtain ⟨u', k1, k2, k3⟩ := keep_step hS hn ho hI hpu (fun K hK => by have := hk K hK; push_cast at this; omega) (choice_mem hc) ht
        obtain ⟨g1, imp, v⟩ := out
        rw [ht] at h
        simp only [Except.bind_ok'] at h
        by_cases hout : outOfPatience patience (if imp = true then 0 else count + 1) = true
        · rw [if_pos hout] at h
          simp only [pure, Except.pure, Except.ok.injEq, Prod.mk.injEq] at h
          obtain ⟨rfl, rfl⟩ := h
          exact ⟨u', k1, k2⟩
        · rw [if_neg hout] at h
          exact ih _ _ _ _ _ _ k1 k2 (fun K hK => by have := hk K hK; push_cast at this; omega) h

theorem AInv.of_sinv {f : Finset Label → ℤ} {prior : List Label} {g : NetworkGraph} {best : ℤ} {count : Nat} {log : List ℤ} {u : List Label}
    (h : SInv (byScore s rm f) n mp prior g best count log u) : AInv s n g u := ⟨h.graph, h.key, h.nodup, h.loop⟩

theorem prior_card {prior : List Label} (hnd : prior.Nodup) (h : ∀ p, p ∈ prior ↔ (p, n) ∈ known) :
    (parentsIn known n).card = prior.length := by
  rw [parentsIn_known h, List.toFinset_card_of_nodup hnd]

/-- **C101** Hill climbing keeps every known edge into `n`, whatever the score of the parent sets and whatever the random draws, exactly in
these cases: no edge into `n` is known; no other variable is free to be tried (then there is nothing to exchange, and the search raises unless
`iterations_number` is 0); `iterations_number` is 0; `max_parents` is not set, or at least the number of other variables, or at least the number
of known parents plus `iterations_number`. -/
theorem hill_keeps_known_iff (hS : SearchInput s rm known) (hn : n ∈ s.labels) (hpat : ∀ k, patience = some k → 0 ≤ k) :
    (∀ (f : Finset Label → ℤ) (pick drop : Nat → Nat) (es : List Edge) (log : List ℤ),
      (⟨s, rm, scoreBy f⟩ : SearchEnv ℤ).hill n mp iterations patience pick drop = .ok (es, log) →
      ∀ p, (p, n) ∈ known → (p, n) ∈ es) ↔
    (parentsIn known n = ∅ ∨ freeParents s known n = ∅ ∨ iterations = 0 ∨
      ∀ k, mp = some k → (s.labels.length : ℤ) - 1 ≤ k ∨ ((parentsIn known n).card : ℤ) + iterations ≤ k) := by
  constructor
  · intro H
    by_contra hcon
    push Not at hcon
    obtain ⟨c1, c2, c3, K, rfl, c4, c5⟩ := hcon
    -- the start of the search does not depend on the score; use any score to find the prior parents
    obtain ⟨j, prior, s0, g0, h1, h2, h3, h4, h5⟩ := search_start (E := byScore s rm (fun _ => 0)) (n := n) (byScore_ready hS)
      (byScore_known hS) hn byScore_scorable
    obtain ⟨j', prior', s1, g1, h1', h2', h3', h4', h5'⟩ := search_start (E := byScore s rm (newParents prior)) (n := n)
      (byScore_ready hS) (byScore_known hS) hn byScore_scorable
    have hjj : j = j' := by rw [h1] at h1'; exact Except.ok.inj h1'
    subst hjj
    have hpp : prior = prior' := by
      have : (byScore s rm (fun _ => 0)).priorParents j = (byScore s rm (newParents prior)).priorParents j := rfl
      rw [this, h2'] at h2; exact (Except.ok.inj h2).symm
    subst hpp
    have hI := AInv.of_sinv (h5' (some K))
    have hs1 : newParents prior prior.toFinset = s1 := by
      have := (h5' (some K)).score _ (byScore_scoreOf (f := newParents prior))
      exact Except.ok.inj this
    have hcard := prior_card hI.nodup h3
    obtain ⟨q, hq⟩ := c1
    rw [parentsIn_known h3, List.mem_toFinset] at hq
    have hne : (byScore s rm (newParents prior)).otherNodes n prior ≠ [] := by
      obtain ⟨p, hp⟩ := c2
      have := (mem_candidates (E := byScore s rm (newParents prior)) h3 p).1 hp
      intro h; rw [h] at this; cases this
    obtain ⟨p0, hp0⟩ := List.exists_mem_of_ne_nil _ hne
    obtain ⟨o1, o2, o3⟩ := mem_otherNodes.1 hp0
    have hlen : prior.length + 1 < s.labels.length := by
      have hnd : (n :: p0 :: prior).Nodup := by
        rw [List.nodup_cons, List.nodup_cons, List.mem_cons]
        exact ⟨fun hc => hc.elim (fun e => o2 e.symm) hI.loop, o3, hI.nodup⟩
      have hsub : (n :: p0 :: prior) ⊆ s.labels := by
        intro y hy
        rcases List.mem_cons.1 hy with rfl | hy
        · exact hn
        rcases List.mem_cons.1 hy with rfl | hy
        · exact o1
        exact hI.graph.sub y hy
      have := (hnd.subperm hsub).length_le
      simp only [List.length_cons] at this
      omega
    rw [hcard] at c5
    obtain ⟨pick, drop, g', log', u', k1, k2, k3⟩ := hill_can_lose (patience := patience) (K := K) (q := q) hS hn
      (fun p hp => mem_otherNodes.1 hp)
      (fun p hp hpn => by
        by_cases h : p ∈ prior
        · exact Or.inl h
        · exact Or.inr (mem_otherNodes.2 ⟨hp, hpn, h⟩)) hne hq (by omega) hpat iterations 0 g1 prior 0 [s1] hI
      (fun _ h => h) hlen (by omega) (by omega)
    rw [hs1] at k1
    have hrun : (byScore s rm (newParents prior)).hill n (some K) iterations patience pick drop = .ok (g'.edges, log') := by
      unfold hill
      rw [h1]
      simp only [Except.bind_ok', h2', h4', k1]
      rfl
    have := H (newParents prior) pick drop _ _ hrun q ((h3 q).1 hq)
    exact k3 ((k2.graph.edges_mem _).1 this).2
  · intro hcase f pick drop es log h p hp
    rcases hcase with h0 | h0 | h0 | h0
    · have : p ∈ parentsIn known n := by
        simp only [parentsIn, List.mem_toFinset, List.mem_map, List.mem_filter, decide_eq_true_eq]
        exact ⟨_, ⟨hp, rfl⟩, rfl⟩
      rw [h0] at this; simp at this
    · by_cases hi : 0 < iterations
      · rw [hill_fails_without_candidates (byScore_ready hS) (byScore_known hS) hn byScore_scorable h0 hi] at h
        cases h
      · have hi : iterations = 0 := by omega
        subst hi
        obtain ⟨hn, prior, s0, g0, k1, k2, k3, g, k4, rfl⟩ := hill_run (byScore_ready hS) (byScore_known hS) h
        simp only [hillLoop, Except.ok.injEq, Prod.mk.injEq] at k4
        obtain ⟨rfl, -⟩ := k4
        exact (k3.graph.edges_mem _).2 ⟨rfl, (k2 p).2 hp⟩
    · subst h0
      obtain ⟨hn, prior, s0, g0, k1, k2, k3, g, k4, rfl⟩ := hill_run (byScore_ready hS) (byScore_known hS) h
      simp only [hillLoop, Except.ok.injEq, Prod.mk.injEq] at k4
      obtain ⟨rfl, -⟩ := k4
      exact (k3.graph.edges_mem _).2 ⟨rfl, (k2 p).2 hp⟩
    · by_cases hbig : ∀ k, mp = some k → (s.labels.length : ℤ) - 1 ≤ k
      · exact hill_keeps_known_partial (byScore_ready hS) (byScore_known hS) hbig h p hp
      · push Not at hbig
        obtain ⟨K, rfl, hK⟩ := hbig
        have hfew := (h0 K rfl).resolve_left (by omega)
        obtain ⟨hn, prior, s0, g0, k1, k2, k3, g, k4, rfl⟩ := hill_run (byScore_ready hS) (byScore_known hS) h
        rw [prior_card k1 k2] at hfew
        obtain ⟨u', l1, l2⟩ := hill_keep_few hS hn (fun p hp => mem_otherNodes.1 hp) _ _ _ _ _ _ _ (AInv.of_sinv k3) (fun _ h => h)
          (fun K' hK' => by cases hK'; exact hfew) k4
        exact (l1.graph.edges_mem _).2 ⟨rfl, l2 p ((k2 p).2 hp)⟩

/-- The configuration of the search of the tests: three variables, `Y → X` known. -/
theorem demo_searchInput : SearchInput demoSearch.struct demoSearch.removable demoKnown :=
  ⟨⟨by decide, by decide, by decide⟩, rfl, by decide, by decide +kernel, by decide⟩

/-- With `max_parents = 1`, one iteration loses `Y → X` for some score and draws; two parents allowed, one iteration never does. -/
example : ¬ (parentsIn demoKnown "X" = ∅ ∨ freeParents demoSearch.struct demoKnown "X" = ∅ ∨ 1 = 0 ∨
      ∀ k, some (1 : ℤ) = some k → (demoSearch.struct.labels.length : ℤ) - 1 ≤ k ∨ ((parentsIn demoKnown "X").card : ℤ) + (1 : Nat) ≤ k) := by
  rintro (h | h | h | h)
  · revert h; decide
  · revert h; decide
  · cases h
  · have := h 1 rfl
    rw [show (parentsIn demoKnown "X").card = 1 by decide] at this
    simp [demoSearch] at this
example : ∃ (f : Finset Label → ℤ) (pick drop : Nat → Nat) (es : List Edge) (log : List ℤ),
      (⟨demoSearch.struct, demoSearch.removable, scoreBy f⟩ : SearchEnv ℤ).hill "X" (some 1) 1 (some 0) pick drop = .ok (es, log) ∧
      ("Y", "X") ∈ demoKnown ∧ ("Y", "X") ∉ es :=
  ⟨fun U => if "Z" ∈ U then 1 else 0, fun _ => 0, fun _ => 0, [("Z", "X")], [0, 1], by decide +kernel, by decide, by decide⟩

/-! ## Keeping known edges: tabu search -/

/-- A candidate that is not tabu can be the one picked, and the bookkeeping succeeds. -/
theorem tabu_can_pick {others done q t : List Label} {length duration : ℤ} (hQ : QInv others done q t length) {p : Label} (hp : p ∈ others)
    (hpq : p ∉ q) (hlen : 0 < length) (hdur : duration ≠ 0) (c : Nat) :
    ∃ r q2 t2 c', tabuPick others q t r = .ok (p, q, t) ∧ tabuUpdate length duration q t p c = .ok (q2, t2, c') ∧
      QInv others (done ++ [p]) q2 t2 length := by
  have hmem : p ∈ others.filter (fun l => decide (l ∉ t)) := by
    rw [List.mem_filter]
    exact ⟨hp, by simpa using fun h => hpq ((hQ.same p).1 h)⟩
  obtain ⟨r, hr⟩ := choice_surj hmem
  obtain ⟨⟨q2, t2, c'⟩, h3⟩ := tabuUpdate_ok (c := c) hQ.same hQ.nodup hpq hlen hdur
  refine ⟨r, q2, t2, c', ?_, h3, (tabuUpdate_spec hQ.same hQ.nodup hQ.sub hQ.suffix hQ.bound hp hpq h3).1⟩
  unfold tabuPick
  simp only
  rw [if_pos (List.length_pos_of_mem hmem), hr]
  rfl

/-- Whatever the draw, some candidate is picked and the bookkeeping succeeds. -/
theorem tabu_picks {others done q t : List Label} {length duration : ℤ} (hQ : QInv others done q t length) (hne : others ≠ [])
    (hlen : 0 < length) (hdur : duration ≠ 0) (c r : Nat) :
    ∃ p q1 t1 q2 t2 c', tabuPick others q t r = .ok (p, q1, t1) ∧ p ∈ others ∧ tabuUpdate length duration q1 t1 p c = .ok (q2, t2, c') ∧
      QInv others (done ++ [p]) q2 t2 length := by
  obtain ⟨⟨p, q1, t1⟩, h1⟩ := tabuPick_ok hQ hne r
  obtain ⟨k1, k2, k3, k4, k5⟩ := tabuPick_spec hQ h1
  obtain ⟨⟨q2, t2, c'⟩, h3⟩ := tabuUpdate_ok (c := c) k3 (hQ.nodup.sublist k4.sublist) k2 hlen hdur
  have hb : (q1.length : ℤ) ≤ max 0 length := by
    have h1 := k4.length_le
    have h2 := hQ.bound
    omega
  exact ⟨p, q1, t1, q2, t2, c', h1, k1, h3, (tabuUpdate_spec k3 (hQ.nodup.sublist k4.sublist) (fun x hx => hQ.sub x (k4.subset hx))
    (k4.trans hQ.suffix) hb k1 k2 h3).1⟩

variable {length duration : ℤ}

theorem tabu_lost {prior others : List Label} {q : Label} (hS : SearchInput s rm known) (hn : n ∈ s.labels)
    (ho : ∀ p ∈ others, p ∈ s.labels ∧ p ≠ n ∧ p ∉ prior) (hne : others ≠ []) (hq : q ∈ prior) (hlen : 0 < length) (hdur : duration ≠ 0)
    (pick drop : Nat → Nat)
    (k i : Nat) (g : NetworkGraph) (u : List Label) (count : Nat) (tq tt done : List Label) (c : Nat) (log : List (TabuStep ℤ))
    (hI : AInv s n g u) (hqu : q ∉ u) (h1 : 1 ≤ newParents prior u.toFinset) (hQ : QInv others done tq tt length) :
    ∃ g' log' u', (byScore s rm (newParents prior)).tabuLoop n others mp patience length duration pick drop k i g
      (newParents prior u.toFinset) count tq tt c log = .ok (g', log') ∧ AInv s n g' u' ∧ q ∉ u' := by
  induction k generalizing i g u count tq tt done c log with
  | zero => exact ⟨g, log, u, rfl, hI, hqu⟩
  | succ k ih =>
    obtain ⟨p, q1, t1, q2, t2, c', hc, hp, hup, hQ'⟩ := tabu_picks hQ hne hlen hdur c (pick i)
    obtain ⟨g', u', imp, v, k1, k2, k3, k4, k5⟩ := lost_step (mp := mp) hS hn ho hq hI hqu h1 hp (drop i)
    rw [tabuLoop]
    simp only [hc, Except.bind_ok', k1, hup]
    by_cases hout : outOfPatience patience (if imp = true then 0 else count + 1) = true
    · rw [if_pos hout]; exact ⟨g', _, u', rfl, k2, k3⟩
    · rw [if_neg hout, k5]; exact ih _ _ _ _ _ _ _ _ _ k2 k3 k4 hQ'

theorem exists_fresh {prior others u : List Label} (hS : SearchInput s rm known) (hn : n ∈ s.labels)
    (hall : ∀ p ∈ s.labels, p ≠ n → p ∈ prior ∨ p ∈ others) (hpu : ∀ p ∈ prior, p ∈ u) (hu : u.length + 1 < s.labels.length) :
    ∃ p ∈ others, p ∉ u := by
  by_contra hcon
  push Not at hcon
  have hsub : s.labels.erase n ⊆ u := by
    intro x hx
    obtain ⟨x1, x2⟩ := (hS.wf.nodup.mem_erase_iff).1 hx
    rcases hall x x2 x1 with h | h
    · exact hpu x h
    · exact hcon x h
  have := ((hS.wf.nodup.erase n).subperm hsub).length_le
  rw [List.length_erase_of_mem hn] at this
  omega

theorem tabu_can_lose {prior others : List Label} {q : Label} {K : ℤ} (hS : SearchInput s rm known) (hn : n ∈ s.labels)
    (ho : ∀ p ∈ others, p ∈ s.labels ∧ p ≠ n ∧ p ∉ prior) (hall : ∀ p ∈ s.labels, p ≠ n → p ∈ prior ∨ p ∈ others) (hne : others ≠ [])
    (hq : q ∈ prior) (hK : K + 1 < s.labels.length) (hpat : ∀ k, patience = some k → 0 ≤ k) (hlen : 0 < length) (hdur : duration ≠ 0)
    (k i : Nat) (g : NetworkGraph) (u : List Label) (count : Nat) (tq tt done : List Label) (c : Nat) (log : List (TabuStep ℤ))
    (hI : AInv s n g u) (hpu : ∀ p ∈ prior, p ∈ u) (hQ : QInv others done tq tt length) (hdone : ∀ p ∈ done, p ∈ u)
    (hu : u.length + 1 < s.labels.length) (hk : K - u.length < k) (hk1 : 0 < k) :
    ∃ pick drop g' log' u', (byScore s rm (newParents prior)).tabuLoop n others (some K) patience length duration pick drop k i g
      (newParents prior u.toFinset) count tq tt c log = .ok (g', log') ∧ AInv s n g' u' ∧ q ∉ u' := by
  induction k generalizing i g u count tq tt done c log with
  | zero => omega
  | succ k ih =>
    obtain ⟨p, hp, hpu'⟩ := exists_fresh hS hn hall hpu hu
    obtain ⟨o1, o2, o3⟩ := ho p hp
    obtain ⟨r, q2, t2, c', hr, hup, hQ'⟩ := tabu_can_pick hQ hp (fun h => hpu' (hdone p (hQ.suffix.subset h))) hlen hdur c
    have hrej : outOfPatience patience 0 = false := by
      cases patience with
      | none => rfl
      | some x => have := hpat x rfl; simp [outOfPatience, this]
    by_cases hfull : K ≤ u.length
    · obtain ⟨r', g', k1, k2⟩ := step_swap (f := newParents prior) (byScore_ready hS) hI hn o1 o2 hpu' hfull (hpu q hq)
        (newParents prior u.toFinset)
      have hval : newParents prior (p :: u.erase q).toFinset = newParents prior u.toFinset + 1 := by
        rw [newParents_cons (fun h => hpu' (List.erase_subset h)) o3, newParents_erase_known hI.nodup hq]
      have hlt : newParents prior u.toFinset < newParents prior (p :: u.erase q).toFinset := by omega
      simp only [hlt, decide_true, if_true] at k1 k2
      have hnn : 0 ≤ newParents prior u.toFinset := by unfold newParents; omega
      have hqp : q ≠ p := fun e => o3 (e ▸ hq)
      have := tabu_exists_step (E := byScore s rm (newParents prior)) (patience := patience) (k := k) (i := i) (count := count) (log := log)
        (P := fun res => ∃ g' log' u', res = .ok (g', log') ∧ AInv s n g' u' ∧ q ∉ u') hr k1 hup
        (fun h => by simp [hrej] at h)
        (fun _ => ⟨fun _ => 0, fun _ => 0, by
          simp only [if_true]
          exact tabu_lost hS hn ho hne hq hlen hdur _ _ k (i + 1) g' _ 0 _ _ _ _ _ k2
            (fun h => (List.mem_cons.1 h).elim hqp (fun h => ((hI.nodup.mem_erase_iff).1 h).1 rfl)) (by omega) hQ'⟩)
      exact this
    · obtain ⟨g', k1, k2⟩ := step_add (mp := some K) (f := newParents prior) (byScore_ready hS) hI hn o1 o2 hpu'
        (fun k hk => by cases hk; omega) (newParents prior u.toFinset) 0
      have hval := newParents_cons (prior := prior) hpu' o3
      have hlt : newParents prior u.toFinset < newParents prior (p :: u).toFinset := by omega
      simp only [hlt, decide_true, if_true] at k1 k2
      have := tabu_exists_step (E := byScore s rm (newParents prior)) (patience := patience) (k := k) (i := i) (count := count) (log := log)
        (P := fun res => ∃ g' log' u', res = .ok (g', log') ∧ AInv s n g' u' ∧ q ∉ u') hr k1 hup
        (fun h => by simp [hrej] at h)
        (fun _ => by
          simp only [if_true]
          exact ih (i + 1) g' (p :: u) 0 _ _ (done ++ [p]) _ _ k2 (fun x hx => List.mem_cons_of_mem _ (hpu x hx)) hQ'
            (fun x hx => (List.mem_append.1 hx).elim (fun h => List.mem_cons_of_mem _ (hdone x h)) (fun h => by simp at h; simp [h]))
            (by rw [List.length_cons]; omega)
            (by rw [List.length_cons]; push_cast; push_cast at hk; omega) (by push_cast at hk; omega))
      exact this

theorem tabu_keep_few {f : Finset Label → ℤ} {prior others : List Label} {pick drop : Nat → Nat} (hS : SearchInput s rm known)
    (hn : n ∈ s.labels) (ho : ∀ p ∈ others, p ∈ s.labels ∧ p ≠ n ∧ p ∉ prior)
    (k i : Nat) (g : NetworkGraph) (u : List Label) (best : ℤ) (count : Nat) (tq tt done : List Label) (c : Nat) (log : List (TabuStep ℤ))
    (hI : AInv s n g u) (hpu : ∀ p ∈ prior, p ∈ u) (hQ : QInv others done tq tt length)
    (hk : ∀ K, mp = some K → (u.length : ℤ) + k ≤ K) {g' : NetworkGraph} {log' : List (TabuStep ℤ)}
    (h : (byScore s rm f).tabuLoop n others mp patience length duration pick drop k i g best count tq tt c log = .ok (g', log')) :
    ∃ u', AInv s n g' u' ∧ ∀ p ∈ prior, p ∈ u' := by
  induction k generalizing i g u best count tq tt done c log with
  | zero =>
    simp only [tabuLoop, Except.ok.injEq, Prod.mk.injEq] at h
    obtain ⟨rfl, rfl⟩ := h
    exact ⟨u, hI, hpu⟩
  | succ k ih =>
    rw [tabuLoop] at h
    cases hc : tabuPick others tq tt (pick i) with
    | error e => rw [hc] at h; simp at h
    | ok o1 =>
      obtain ⟨p, q1, t1⟩ := o1
      rw [hc] at h
      simp only [Except.bind_ok'] at h
      obtain ⟨k1, k2, k3, k4, k5⟩ := tabuPick_spec hQ hc
      cases ht : (byScore s rm f).tryMove n mp g best p (drop i) with
      | error e => rw [ht] at h; simp at h
      | ok out =>
        obtain ⟨u', l1, l2, l3⟩ := keep_step hS hn ho hI hpu (fun K hK => by have := hk K hK; push_cast at this; omega) k1 ht
        obtain ⟨g1, imp, v⟩ := out
        rw [ht] at h
        simp only [Except.bind_ok'] at h
        cases h3 : tabuUpdate length duration q1 t1 p c with
        | error e => rw [h3] at h; simp at h
        | ok o3 =>
          obtain ⟨q2, t2, c'⟩ := o3
          rw [h3] at h
          simp only [Except.bind_ok'] at h
          have hb : (q1.length : ℤ) ≤ max 0 length := by
            have h1 := k4.length_le
            have h2 := hQ.bound
            omega
          have hQ' := (tabuUpdate_spec k3 (hQ.nodup.sublist k4.sublist) (fun x hx => hQ.sub x (k4.subset hx)) (k4.trans hQ.suffix) hb k1 k2 h3).1
          by_cases hout : outOfPatience patience (if imp = true then 0 else count + 1) = true
          · rw [if_pos hout] at h
            simp only [pure, Except.pure, Except.ok.injEq, Prod.mk.injEq] at h
            obtain ⟨rfl, rfl⟩ := h
            exact ⟨u', l1, l2⟩
          · rw [if_neg hout] at h
            exact ih _ _ _ _ _ _ _ _ _ _ l1 l2 hQ' (fun K hK => by have := hk K hK; push_cast at this; omega) h

variable {tl td : Option ℤ}

theorem others_nonempty {prior : List Label} {f : Finset Label → ℤ} (h3 : ∀ p, p ∈ prior ↔ (p, n) ∈ known)
    (hf : (freeParents s known n).Nonempty) : (byScore s rm f).otherNodes n prior ≠ [] := by
  obtain ⟨p, hp⟩ := hf
  have := (mem_candidates (E := byScore s rm f) h3 p).1 hp
  intro h; rw [h] at this; cases this

/-- **C102** The same for tabu search, if `tabu_length` is unset or positive and `tabu_rules_duration` is unset or not 0 (otherwise the search never
returns from its first iteration, C56): it keeps every known edge into `n` for all scores and draws exactly in the cases in which hill climbing does. -/
theorem tabu_keeps_known_iff (hS : SearchInput s rm known) (hn : n ∈ s.labels) (hpat : ∀ k, patience = some k → 0 ≤ k)
    (htl : ∀ k, tl = some k → 1 ≤ k) (htd : ∀ k, td = some k → k ≠ 0) :
    (∀ (f : Finset Label → ℤ) (pick drop : Nat → Nat) (es : List Edge) (start : ℤ) (steps : List (TabuStep ℤ)),
      (⟨s, rm, scoreBy f⟩ : SearchEnv ℤ).tabu n mp iterations patience tl td pick drop = .ok (es, start, steps) →
      ∀ p, (p, n) ∈ known → (p, n) ∈ es) ↔
    (parentsIn known n = ∅ ∨ freeParents s known n = ∅ ∨ iterations = 0 ∨
      ∀ k, mp = some k → (s.labels.length : ℤ) - 1 ≤ k ∨ ((parentsIn known n).card : ℤ) + iterations ≤ k) := by
  constructor
  · intro H
    by_contra hcon
    push Not at hcon
    obtain ⟨c1, c2, c3, K, rfl, c4, c5⟩ := hcon
    obtain ⟨j, prior, s0, g0, h1, h2, h3, h4, h5⟩ := search_start (E := byScore s rm (fun _ => 0)) (n := n) (byScore_ready hS)
      (byScore_known hS) hn byScore_scorable
    obtain ⟨j', prior', s1, g1, h1', h2', h3', h4', h5'⟩ := search_start (E := byScore s rm (newParents prior)) (n := n)
      (byScore_ready hS) (byScore_known hS) hn byScore_scorable
    have hjj : j = j' := by rw [h1] at h1'; exact Except.ok.inj h1'
    subst hjj
    have hpp : prior = prior' := by
      have : (byScore s rm (fun _ => 0)).priorParents j = (byScore s rm (newParents prior)).priorParents j := rfl
      rw [this, h2'] at h2; exact (Except.ok.inj h2).symm
    subst hpp
    have hI := AInv.of_sinv (h5' (some K))
    have hs1 : newParents prior prior.toFinset = s1 := by
      have := (h5' (some K)).score _ (byScore_scoreOf (f := newParents prior))
      exact Except.ok.inj this
    have hcard := prior_card hI.nodup h3
    obtain ⟨q, hq⟩ := c1
    rw [parentsIn_known h3, List.mem_toFinset] at hq
    have hne := others_nonempty (rm := rm) (f := newParents prior) h3 c2
    have hpos := List.length_pos_iff.2 hne
    obtain ⟨p0, hp0⟩ := List.exists_mem_of_ne_nil _ hne
    obtain ⟨o1, o2, o3⟩ := mem_otherNodes.1 hp0
    have hlen : prior.length + 1 < s.labels.length := by
      have hnd : (n :: p0 :: prior).Nodup := by
        rw [List.nodup_cons, List.nodup_cons, List.mem_cons]
        exact ⟨fun hc => hc.elim (fun e => o2 e.symm) hI.loop, o3, hI.nodup⟩
      have hsub : (n :: p0 :: prior) ⊆ s.labels := by
        intro y hy
        rcases List.mem_cons.1 hy with rfl | hy
        · exact hn
        rcases List.mem_cons.1 hy with rfl | hy
        · exact o1
        exact hI.graph.sub y hy
      have := (hnd.subperm hsub).length_le
      simp only [List.length_cons] at this
      omega
    rw [hcard] at c5
    obtain ⟨pick, drop, g', log', u', k1, k2, k3⟩ := tabu_can_lose (patience := patience) (K := K) (q := q)
      (length := tl.getD ((byScore s rm (newParents prior)).otherNodes n prior).length)
      (duration := td.getD ((byScore s rm (newParents prior)).otherNodes n prior).length) hS hn
      (fun p hp => mem_otherNodes.1 hp)
      (fun p hp hpn => by
        by_cases h : p ∈ prior
        · exact Or.inl h
        · exact Or.inr (mem_otherNodes.2 ⟨hp, hpn, h⟩)) hne hq (by omega) hpat
      (by cases tl with
          | none => simpa using hpos
          | some k => have := htl k rfl; simp only [Option.getD_some]; omega)
      (by cases td with
          | none => simp only [Option.getD_none]; omega
          | some k => exact htd k rfl)
      iterations 0 g1 prior 0 [] [] [] 0 [] hI (fun _ h => h) (QInv.empty _ _) (fun p hp => by cases hp) hlen (by omega) (by omega)
    rw [hs1] at k1
    have hrun : (byScore s rm (newParents prior)).tabu n (some K) iterations patience tl td pick drop = .ok (g'.edges, s1, log') := by
      unfold tabu
      rw [h1]
      simp only [Except.bind_ok', h2', h4', k1]
      rfl
    have := H (newParents prior) pick drop _ _ _ hrun q ((h3 q).1 hq)
    exact k3 ((k2.graph.edges_mem _).1 this).2
  · intro hcase f pick drop es start steps h p hp
    have hzero : iterations = 0 → (p, n) ∈ es := by
      rintro rfl
      obtain ⟨hn, prior, g0, k1, k2, k3, g, k4, rfl⟩ := tabu_run (byScore_ready hS) (byScore_known hS) h
      simp only [tabuLoop, Except.ok.injEq, Prod.mk.injEq] at k4
      obtain ⟨rfl, -⟩ := k4
      exact (k3.graph.edges_mem _).2 ⟨rfl, (k2 p).2 hp⟩
    rcases hcase with h0 | h0 | h0 | h0
    · have : p ∈ parentsIn known n := by
        simp only [parentsIn, List.mem_toFinset, List.mem_map, List.mem_filter, decide_eq_true_eq]
        exact ⟨_, ⟨hp, rfl⟩, rfl⟩
      rw [h0] at this; simp at this
    · by_cases hi : 0 < iterations
      · rw [tabu_blocks_without_candidates (byScore_ready hS) (byScore_known hS) hn byScore_scorable h0 hi] at h
        cases h
      · exact hzero (by omega)
    · exact hzero h0
    · by_cases hbig : ∀ k, mp = some k → (s.labels.length : ℤ) - 1 ≤ k
      · exact tabu_keeps_known_partial (byScore_ready hS) (byScore_known hS) hbig h p hp
      · push Not at hbig
        obtain ⟨K, rfl, hK⟩ := hbig
        have hfew := (h0 K rfl).resolve_left (by omega)
        obtain ⟨hn, prior, g0, k1, k2, k3, g, k4, rfl⟩ := tabu_run (byScore_ready hS) (byScore_known hS) h
        rw [prior_card k1 k2] at hfew
        obtain ⟨u', l1, l2⟩ := tabu_keep_few hS hn (fun p hp => mem_otherNodes.1 hp) _ _ _ _ _ _ _ _ [] _ _ (AInv.of_sinv k3)
          (fun _ h => h) (QInv.empty _ _) (fun K' hK' => by cases hK'; exact hfew) k4
        exact (l1.graph.edges_mem _).2 ⟨rfl, l2 p ((k2 p).2 hp)⟩

example : ∃ (f : Finset Label → ℤ) (pick drop : Nat → Nat) (es : List Edge) (start : ℤ) (steps : List (TabuStep ℤ)),
      (⟨demoSearch.struct, demoSearch.removable, scoreBy f⟩ : SearchEnv ℤ).tabu "X" (some 1) 1 (some 0) none none pick drop =
        .ok (es, start, steps) ∧ ("Y", "X") ∈ demoKnown ∧ ("Y", "X") ∉ es :=
  ⟨fun U => if "Z" ∈ U then 1 else 0, fun _ => 0, fun _ => 0, [("Z", "X")], 0, [⟨"Z", [], 1⟩], rfl, by decide, by decide⟩

/-! ## Returning -/

/-- Known parents count twice: they can only be removed by exchanging them for a candidate and removing the candidate. -/
def phi (prior : List Label) (U : Finset Label) : ℤ := ∑ x ∈ U, if x ∈ prior then 2 else 1

theorem phi_erase {prior u : List Label} {q : Label} (hu : u.Nodup) (hq : q ∈ u) :
    phi prior (u.erase q).toFinset = phi prior u.toFinset - if q ∈ prior then 2 else 1 := by
  unfold phi
  have h := Finset.add_sum_erase u.toFinset (fun x => if x ∈ prior then (2 : ℤ) else 1) (List.mem_toFinset.2 hq)
  have he : (u.erase q).toFinset = u.toFinset.erase q := by
    ext x; rw [List.mem_toFinset, Finset.mem_erase, List.mem_toFinset, hu.mem_erase_iff]
  rw [he]
  omega

theorem phi_cons {prior u : List Label} {p : Label} (hp : p ∉ u) (hpp : p ∉ prior) :
    phi prior (p :: u).toFinset = phi prior u.toFinset + 1 := by
  unfold phi
  rw [List.toFinset_cons, Finset.sum_insert (by simpa using hp), if_neg hpp]
  ring

theorem phi_prior {prior : List Label} (h : prior.Nodup) : phi prior prior.toFinset = 2 * prior.length := by
  unfold phi
  rw [Finset.sum_congr rfl (fun x hx => if_pos (List.mem_toFinset.1 hx)), Finset.sum_const, List.toFinset_card_of_nodup h]
  simp [mul_comm]

theorem phi_step {prior u u' : List Label} {p : Label} {d : Option Label} (hu : u.Nodup) (hpp : p ∉ prior) (h : Proposal mp u p u' d) :
    phi prior u.toFinset - 1 ≤ phi prior u'.toFinset := by
  cases h with
  | remove hp => rw [phi_erase hu hp, if_neg hpp]
  | add hp _ => rw [phi_cons hp hpp]; omega
  | swap q k hp _ _ hq =>
    rw [phi_cons (fun h => hp (List.erase_subset h)) hpp, phi_erase hu hq]
    split <;> omega

/-- Few iterations cannot use up the known parents. -/
theorem hill_few_return {f : Finset Label → ℤ} {prior others : List Label} (hS : SearchInput s rm known) (hn : n ∈ s.labels)
    (ho : ∀ p ∈ others, p ∈ s.labels ∧ p ≠ n ∧ p ∉ prior) (hne : others ≠ []) (pick drop : Nat → Nat)
    (k i : Nat) (g : NetworkGraph) (u : List Label) (best : ℤ) (count : Nat) (log : List ℤ) (hI : AInv s n g u) (hk : (k : ℤ) ≤ phi prior u.toFinset) :
    ∃ out, (byScore s rm f).hillLoop n others mp patience pick drop k i g best count log = .ok out := by
  induction k generalizing i g u best count log with
  | zero => exact ⟨_, rfl⟩
  | succ k ih =>
    obtain ⟨p, hp, hc⟩ := choice_ok hne (pick i)
    obtain ⟨o1, o2, o3⟩ := ho p hp
    have hune : u ≠ [] := by
      rintro rfl
      simp only [phi, List.toFinset_nil, Finset.sum_empty] at hk
      push_cast at hk; omega
    obtain ⟨g', u', d, k1, k2, k3⟩ := step_ok (mp := mp) (f := f) (byScore_ready hS) hI hn o1 o2 (fun k _ _ _ => hune) best (drop i)
    rw [hillLoop]
    simp only [hc, Except.bind_ok', k1]
    generalize decide (best < f u'.toFinset) = imp
    by_cases hout : outOfPatience patience (if imp = true then 0 else count + 1) = true
    · rw [if_pos hout]; exact ⟨_, rfl⟩
    · rw [if_neg hout]
      refine ih _ _ _ _ _ _ k3 ?_
      have := phi_step (prior := prior) hI.nodup o3 k2
      push_cast at hk
      split <;> omega

/-- The adversary uses up the known parents and makes the search fail. -/
theorem hill_can_fail {prior others : List Label} {K : ℤ} (hS : SearchInput s rm known) (hn : n ∈ s.labels)
    (ho : ∀ p ∈ others, p ∈ s.labels ∧ p ≠ n ∧ p ∉ prior) (hne : others ≠ []) (hK : K ≤ 0) (hpat : ∀ k, patience = some k → 0 ≤ k)
    (m : Nat) (k i : Nat) (g : NetworkGraph) (u : List Label) (count : Nat) (log : List ℤ) (hI : AInv s n g u) (hu : ∀ p ∈ u, p ∈ prior)
    (hm : u.length = m) (hk : 2 * m < k) :
    ∃ pick drop e, (byScore s rm (fun U => - phi prior U)).hillLoop n others (some K) patience pick drop k i g
      (- phi prior u.toFinset) count log = .error e := by
  have hrej : outOfPatience patience 0 = false := by
    cases patience with
    | none => rfl
    | some x => have := hpat x rfl; simp [outOfPatience, this]
  obtain ⟨p, hp⟩ := List.exists_mem_of_ne_nil _ hne
  obtain ⟨o1, o2, o3⟩ := ho p hp
  obtain ⟨r, hr⟩ := choice_surj hp
  induction m generalizing k i g u count log with
  | zero =>
    have : u = [] := List.length_eq_zero_iff.1 hm
    subst this
    obtain ⟨k, rfl⟩ := Nat.exists_eq_succ_of_ne_zero (by omega : k ≠ 0)
    refine ⟨fun _ => r, fun _ => 0, .indexError, ?_⟩
    obtain ⟨ps, k1, k2⟩ := hI.graph.parents hI.nodup hI.key
    have : ps = [] := List.perm_nil.1 k2
    subst this
    have hprop : propose n (some K) g p 0 = .error .indexError := by
      unfold propose
      rw [hI.graph.hasEdge]
      simp [k1, hK, choice]
    rw [hillLoop]
    simp [hr, tryMove, hprop]
  | succ m ih =>
    obtain ⟨k, rfl⟩ : ∃ k', k = k' + 2 := ⟨k - 2, by omega⟩
    have hpu : p ∉ u := fun h => o3 (hu p h)
    obtain ⟨q, hq⟩ := List.exists_mem_of_ne_nil u (by rintro rfl; simp at hm)
    have hpe : p ∉ u.erase q := fun h => hpu (List.erase_subset h)
    obtain ⟨r1, g1, k1, k2⟩ := step_swap (f := fun U => - phi prior U) (byScore_ready hS) hI hn o1 o2 hpu (by omega : K ≤ u.length) hq
      (- phi prior u.toFinset)
    have hv1 : phi prior (p :: u.erase q).toFinset = phi prior u.toFinset - 1 := by
      rw [phi_cons hpe o3, phi_erase hI.nodup hq, if_pos (hu q hq)]; ring
    have hlt1 : - phi prior u.toFinset < - phi prior (p :: u.erase q).toFinset := by omega
    simp only [hlt1, decide_true, if_true] at k1 k2
    obtain ⟨g2, l1, l2⟩ := step_remove (mp := some K) (f := fun U => - phi prior U) (byScore_ready hS) k2 hn o1 o2 (List.mem_cons_self ..)
      (- phi prior (p :: u.erase q).toFinset) 0
    have hv2 : phi prior ((p :: u.erase q).erase p).toFinset = phi prior (p :: u.erase q).toFinset - 1 := by
      rw [phi_erase k2.nodup (List.mem_cons_self ..), if_neg o3]
    have hlt2 : - phi prior (p :: u.erase q).toFinset < - phi prior ((p :: u.erase q).erase p).toFinset := by omega
    simp only [hlt2, decide_true, if_true] at l1 l2
    rw [List.erase_cons_head] at l1 l2
    refine hill_exists_step (E := byScore s rm (fun U => - phi prior U)) (P := fun res => ∃ e, res = .error e) hr k1
      (fun h => by simp [hrej] at h) (fun _ => ?_)
    simp only [if_true]
    refine hill_exists_step (E := byScore s rm (fun U => - phi prior U)) (P := fun res => ∃ e, res = .error e) hr l1
      (fun h => by simp [hrej] at h) (fun _ => ?_)
    simp only [if_true]
    exact ih k _ g2 (u.erase q) 0 _ l2 (fun x hx => hu x (List.erase_subset hx)) (by rw [List.length_erase_of_mem hq]; omega) (by omega)

/-- **C103** Hill climbing returns a structure, whatever the score of the parent sets and whatever the random draws, exactly if
`iterations_number` is 0, or some other variable is free to be tried and `max_parents` is not set, or positive, or — when it is 0 or negative —
`iterations_number` is at most twice the number of known parents of `n`. -/
theorem hill_returns_iff (hS : SearchInput s rm known) (hn : n ∈ s.labels) (hpat : ∀ k, patience = some k → 0 ≤ k) :
    (∀ (f : Finset Label → ℤ) (pick drop : Nat → Nat), ∃ es log,
      (⟨s, rm, scoreBy f⟩ : SearchEnv ℤ).hill n mp iterations patience pick drop = .ok (es, log)) ↔
    (iterations = 0 ∨ (freeParents s known n).Nonempty ∧ ∀ k, mp = some k → 1 ≤ k ∨ iterations ≤ 2 * (parentsIn known n).card) := by
  constructor
  · intro H
    by_contra hcon
    rw [not_or] at hcon
    obtain ⟨c1, c2⟩ := hcon
    by_cases hf : (freeParents s known n).Nonempty
    · rw [not_and] at c2
      have c2 := c2 hf
      push Not at c2
      obtain ⟨K, rfl, c3, c4⟩ := c2
      obtain ⟨j, prior, s0, g0, h1, h2, h3, h4, h5⟩ := search_start (E := byScore s rm (fun _ => 0)) (n := n) (byScore_ready hS)
        (byScore_known hS) hn byScore_scorable
      obtain ⟨j', prior', s1, g1, h1', h2', h3', h4', h5'⟩ := search_start (E := byScore s rm (fun U => - phi prior U)) (n := n)
        (byScore_ready hS) (byScore_known hS) hn byScore_scorable
      have hjj : j = j' := by rw [h1] at h1'; exact Except.ok.inj h1'
      subst hjj
      have hpp : prior = prior' := by
        have : (byScore s rm (fun _ => 0)).priorParents j = (byScore s rm (fun U => - phi prior U)).priorParents j := rfl
        rw [this, h2'] at h2; exact (Except.ok.inj h2).symm
      subst hpp
      have hI := AInv.of_sinv (h5' (some K))
      have hs1 : - phi prior prior.toFinset = s1 := by
        have := (h5' (some K)).score _ (byScore_scoreOf (f := fun U => - phi prior U))
        exact Except.ok.inj this
      rw [prior_card hI.nodup h3] at c4
      obtain ⟨pick, drop, e, k1⟩ := hill_can_fail (patience := patience) hS hn
        (fun p hp => mem_otherNodes.1 hp) (others_nonempty (rm := rm) (f := fun U => - phi prior U) h3 hf)
        (by omega : K ≤ 0) hpat prior.length iterations 0 g1 prior 0 [s1] hI (fun _ h => h) rfl c4
      rw [hs1] at k1
      obtain ⟨es, log, hr⟩ := H (fun U => - phi prior U) pick drop
      unfold hill at hr
      rw [h1] at hr
      simp [h2', h4', k1] at hr
    · obtain ⟨es, log, hr⟩ := H (fun _ => 0) (fun _ => 0) (fun _ => 0)
      rw [hill_fails_without_candidates (byScore_ready hS) (byScore_known hS) hn byScore_scorable
        (Finset.not_nonempty_iff_eq_empty.1 hf) (Nat.pos_of_ne_zero c1)] at hr
      cases hr
  · intro hcase f pick drop
    obtain ⟨j, prior, s0, g0, h1, h2, h3, h4, h5⟩ := search_start (E := byScore s rm f) (n := n) (byScore_ready hS)
      (byScore_known hS) hn byScore_scorable
    suffices h : ∃ out, (byScore s rm f).hillLoop n ((byScore s rm f).otherNodes n prior) mp patience pick drop iterations 0 g0 s0 0 [s0] = .ok out by
      obtain ⟨⟨g, log⟩, h⟩ := h
      exact ⟨g.edges, log, by unfold hill; rw [h1]; simp only [Except.bind_ok', h2, h4, h]; rfl⟩
    rcases hcase with rfl | ⟨hf, hk⟩
    · exact ⟨_, rfl⟩
    · by_cases hpos : ∀ k, mp = some k → 1 ≤ k
      · obtain ⟨es, log, hr⟩ := hill_returns_partial (iterations := iterations) (patience := patience) (pick := pick) (drop := drop)
          (byScore_ready hS) (byScore_known hS) hn (byScore_scorable (f := f)) hpos hf
        cases hl : (byScore s rm f).hillLoop n ((byScore s rm f).otherNodes n prior) mp patience pick drop iterations 0 g0 s0 0 [s0] with
        | ok out => exact ⟨out, rfl⟩
        | error e =>
          unfold hill at hr
          rw [h1] at hr
          simp [h2, h4, hl] at hr
      · push Not at hpos
        obtain ⟨K, rfl, hK⟩ := hpos
        have hfew := (hk K rfl).resolve_left (by omega)
        have hI := AInv.of_sinv (h5 (some K))
        rw [prior_card hI.nodup h3] at hfew
        exact hill_few_return hS hn (fun p hp => mem_otherNodes.1 hp) (others_nonempty (rm := rm) (f := f) h3 hf) pick drop _ _ _ _ _ _ _ hI
          (by rw [phi_prior hI.nodup]; exact_mod_cast hfew)

/-- `max_parents = 0`, one known parent: two iterations always return, three may not. -/
example : (freeParents demoSearch.struct demoKnown "X").Nonempty ∧ (parentsIn demoKnown "X").card = 1 := by decide
example : ∃ (f : Finset Label → ℤ) (pick drop : Nat → Nat),
    (⟨demoSearch.struct, demoSearch.removable, scoreBy f⟩ : SearchEnv ℤ).hill "X" (some 0) 3 none pick drop = .error .indexError :=
  ⟨fun U => - ((if "Y" ∈ U then 2 else 0) + (if "Z" ∈ U then 1 else 0)), fun _ => 0, fun _ => 0, by decide +kernel⟩

end PyCTBN
