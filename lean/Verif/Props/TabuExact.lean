import Verif.Props.SearchExact

/-! # When tabu search returns (C106) -/

namespace PyCTBN
open Spec SearchEnv

variable {s : Structure} {rm : List (List Bool)} {known : List Edge} {n : Label} {mp : Option ℤ} {length duration : ℤ}

/-- Entries of the queue from `p` on. -/
def age (p : Label) (q : List Label) : Nat := q.length - q.idxOf p

theorem age_append {p : Label} {pre q : List Label} (h : (pre ++ q).Nodup) (hp : p ∈ q) : age p (pre ++ q) = age p q := by
  have hpre : p ∉ pre := fun h' => (List.nodup_append.1 h).2.2 p h' p hp rfl
  unfold age
  rw [List.idxOf_append_of_notMem hpre, List.length_append]
  omega

/-- While `p` waits in the queue, one more candidate queues up behind it in every iteration. -/
theorem age_step {p x : Label} {q q1 q2 : List Label} (hq : q.Nodup) (h1 : q1 <:+ q) (h2 : q2 <:+ q1 ++ [x]) (hx : x ∉ q1) (hpx : p ≠ x)
    (hp : p ∈ q2) : p ∈ q ∧ age p q2 = age p q + 1 := by
  obtain ⟨pre1, rfl⟩ := h1
  obtain ⟨pre2, hpre2⟩ := h2
  have hnd1 : q1.Nodup := (List.nodup_append.1 hq).2.1
  have hnd2 : (q1 ++ [x]).Nodup := by
    rw [List.nodup_append]
    exact ⟨hnd1, by simp, fun a ha b hb e => hx (by rw [List.mem_singleton.1 hb] at e; exact e ▸ ha)⟩
  have hp1 : p ∈ q1 := by
    have : p ∈ q1 ++ [x] := hpre2 ▸ List.mem_append_right _ hp
    rcases List.mem_append.1 this with h | h
    · exact h
    · exact absurd (List.mem_singleton.1 h) hpx
  refine ⟨List.mem_append_right _ hp1, ?_⟩
  rw [age_append hq hp1, ← age_append (pre := pre2) (by rw [hpre2]; exact hnd2) hp, hpre2]
  unfold age
  rw [List.idxOf_append_of_mem hp1, List.length_append, List.length_singleton]
  have := List.idxOf_lt_length_iff.2 hp1
  omega

theorem phi_nonneg {prior : List Label} (U : Finset Label) : 0 ≤ phi prior U := by
  unfold phi
  exact Finset.sum_nonneg (fun x _ => by split <;> omega)

/-- With `max_parents ≤ 0` an adversary makes tabu search fail after finitely many iterations. -/
theorem tabu_can_fail {prior others : List Label} {K : ℤ} (hS : SearchInput s rm known) (hn : n ∈ s.labels)
    (ho : ∀ p ∈ others, p ∈ s.labels ∧ p ≠ n ∧ p ∉ prior) (hall : ∀ p ∈ s.labels, p ≠ n → p ∈ prior ∨ p ∈ others) (hne : others ≠ [])
    (hK : K ≤ 0) (hlen : 0 < length) (hdur : duration ≠ 0)
    (F : Nat) (i : Nat) (g : NetworkGraph) (u : List Label) (count : Nat) (tq tt done : List Label) (c : Nat) (log : List (TabuStep ℤ))
    (hI : AInv s n g u) (hQ : QInv others done tq tt length) (hF : phi prior u.toFinset = F) :
    ∃ k pick drop e, (byScore s rm (fun U => - phi prior U)).tabuLoop n others (some K) none length duration pick drop k i g
      (- phi prior u.toFinset) count tq tt c log = .error e := by
  induction F using Nat.strong_induction_on generalizing i g u count tq tt done c log with
  | _ F ih =>
  -- an accepted move
  have accept : ∀ {tq tt : List Label} {g : NetworkGraph} {c count i : Nat} {log : List (TabuStep ℤ)} {r r' : Nat} {x : Label} {q1 t1 q2 t2 done' : List Label} {c' : Nat} {g' : NetworkGraph} {u' : List Label},
      tabuPick others tq tt r = .ok (x, q1, t1) → tabuUpdate length duration q1 t1 x c = .ok (q2, t2, c') → QInv others done' q2 t2 length →
      (byScore s rm (fun U => - phi prior U)).tryMove n (some K) g (- phi prior u.toFinset) x r' = .ok (g', true, - phi prior u'.toFinset) →
      AInv s n g' u' → phi prior u'.toFinset < phi prior u.toFinset →
      ∃ k pick drop e, (byScore s rm (fun U => - phi prior U)).tabuLoop n others (some K) none length duration pick drop k i g
        (- phi prior u.toFinset) count tq tt c log = .error e := by
    intro tq tt g c count i log r r' x q1 t1 q2 t2 done' c' g' u' a1 a2 a3 a4 a5 a6
    have hnn := phi_nonneg (prior := prior) u'.toFinset
    obtain ⟨F', hF'⟩ := Int.eq_ofNat_of_zero_le hnn
    obtain ⟨k, pick, drop, e, h⟩ := ih F' (by omega) (i + 1) g' u' 0 q2 t2 done' c' (log ++ [⟨x, tq, - phi prior u'.toFinset⟩]) a5 a3 hF'
    have := tabu_exists_step (E := byScore s rm (fun U => - phi prior U)) (mp := some K) (patience := none) (k := k) (i := i) (count := count)
      (log := log) (P := fun res => ∃ e, res = .error e) a1 a4 a2 (fun h => by simp [outOfPatience] at h)
      (fun _ => ⟨pick, drop, e, by simpa using h⟩)
    obtain ⟨p1, d1, e1, h1⟩ := this
    exact ⟨k + 1, p1, d1, e1, h1⟩
  by_cases hu0 : u = []
  · subst hu0
    obtain ⟨x, q1, t1, q2, t2, c', hc, hx, hup, -⟩ := tabu_picks hQ hne hlen hdur c 0
    refine ⟨1, fun _ => 0, fun _ => 0, .indexError, ?_⟩
    obtain ⟨ps, k1, k2⟩ := hI.graph.parents hI.nodup hI.key
    have : ps = [] := List.perm_nil.1 k2
    subst this
    have hprop : propose n (some K) g x 0 = .error .indexError := by
      unfold propose
      rw [hI.graph.hasEdge]
      simp [k1, hK, choice]
    rw [tabuLoop]
    simp [hc, tryMove, hprop]
  -- the target
  obtain ⟨p, hp, htarget⟩ : ∃ p ∈ others, p ∈ u ∨ ∀ y ∈ u, y ∈ prior := by
    by_cases h : ∀ y ∈ u, y ∈ prior
    · obtain ⟨p, hp⟩ := List.exists_mem_of_ne_nil _ hne
      exact ⟨p, hp, Or.inr h⟩
    · push Not at h
      obtain ⟨y, hy, hyp⟩ := h
      have := hall y (hI.graph.sub y hy) (fun e => hI.loop (e ▸ hy))
      exact ⟨y, this.resolve_left hyp, Or.inl hy⟩
  obtain ⟨o1, o2, o3⟩ := ho p hp
  -- the move of the target
  have target : ∀ {g}, AInv s n g u → ∃ r' g' u', (byScore s rm (fun U => - phi prior U)).tryMove n (some K) g (- phi prior u.toFinset) p r' =
      .ok (g', true, - phi prior u'.toFinset) ∧ AInv s n g' u' ∧ phi prior u'.toFinset < phi prior u.toFinset := by
    intro g hI
    by_cases hpu : p ∈ u
    · obtain ⟨g2, l1, l2⟩ := step_remove (mp := some K) (f := fun U => - phi prior U) (byScore_ready hS) hI hn o1 o2 hpu
        (- phi prior u.toFinset) 0
      have hv : phi prior (u.erase p).toFinset = phi prior u.toFinset - 1 := by rw [phi_erase hI.nodup hpu, if_neg o3]
      have hlt : - phi prior u.toFinset < - phi prior (u.erase p).toFinset := by omega
      simp only [hlt, decide_true, if_true] at l1 l2
      exact ⟨0, g2, _, l1, l2, by omega⟩
    · have hup := htarget.resolve_left hpu
      obtain ⟨q, hq⟩ := List.exists_mem_of_ne_nil u hu0
      have hpe : p ∉ u.erase q := fun h => hpu (List.erase_subset h)
      obtain ⟨r1, g1, k1, k2⟩ := step_swap (f := fun U => - phi prior U) (byScore_ready hS) hI hn o1 o2 hpu (by omega : K ≤ u.length) hq
        (- phi prior u.toFinset)
      have hv : phi prior (p :: u.erase q).toFinset = phi prior u.toFinset - 1 := by
        rw [phi_cons hpe o3, phi_erase hI.nodup hq, if_pos (hup q hq)]; ring
      have hlt : - phi prior u.toFinset < - phi prior (p :: u.erase q).toFinset := by omega
      simp only [hlt, decide_true, if_true] at k1 k2
      exact ⟨r1, g1, _, k1, k2, by omega⟩
  -- wait until the target can be picked
  have hw : p ∈ tq → others.length < age p tq + (others.length + 1) := fun _ => by omega
  generalize hW : others.length + 1 = W at hw
  clear hW
  induction W generalizing i g count tq tt done c log with
  | zero =>
    by_cases hpq : p ∈ tq
    · have h1 := hw hpq
      have h2 : tq.length ≤ others.length := (hQ.nodup.subperm (fun x hx => hQ.sub x hx)).length_le
      unfold age at h1
      omega
    · obtain ⟨r, q2, t2, c', hr, hup, hQ'⟩ := tabu_can_pick hQ hp hpq hlen hdur c
      obtain ⟨r', g', u', m1, m2, m3⟩ := target hI
      exact accept hr hup hQ' m1 m2 m3
  | succ W ihW =>
    by_cases hpq : p ∈ tq
    · obtain ⟨x, q1, t1, hc⟩ : ∃ x q1 t1, tabuPick others tq tt 0 = .ok (x, q1, t1) := by
        obtain ⟨⟨x, q1, t1⟩, h1⟩ := tabuPick_ok hQ hne 0
        exact ⟨x, q1, t1, h1⟩
      obtain ⟨k1, k2, k3, k4, k5⟩ := tabuPick_spec hQ hc
      obtain ⟨⟨q2, t2, c'⟩, h3⟩ := tabuUpdate_ok (c := c) k3 (hQ.nodup.sublist k4.sublist) k2 hlen hdur
      have hb : (q1.length : ℤ) ≤ max 0 length := by
        have h1 := k4.length_le
        have h2 := hQ.bound
        omega
      have hQ' := (tabuUpdate_spec k3 (hQ.nodup.sublist k4.sublist) (fun x hx => hQ.sub x (k4.subset hx))
        List.suffix_rfl hb k1 k2 h3).1
      by_cases hxp : x = p
      · subst hxp
        obtain ⟨r', g', u', m1, m2, m3⟩ := target hI
        exact accept hc h3 hQ' m1 m2 m3
      · obtain ⟨y1, y2, y3⟩ := ho x k1
        obtain ⟨g', u', d, m1, m2, m3⟩ := step_ok (mp := some K) (f := fun U => - phi prior U) (byScore_ready hS) hI hn y1 y2
          (fun _ _ _ _ => hu0) (- phi prior u.toFinset) 0
        by_cases hlt : - phi prior u.toFinset < - phi prior u'.toFinset
        · simp only [hlt, decide_true, if_true] at m1 m3
          exact accept hc h3 hQ' m1 m3 (by omega)
        · simp only [hlt, decide_false, if_false] at m1 m3
          obtain ⟨k, pick, drop, e, h⟩ := ihW (i + 1) g' (count + 1) q2 t2 _ c' (log ++ [⟨x, tq, - phi prior u'.toFinset⟩]) m3 hQ'
            (fun hp2 => by
              have := age_step hQ.nodup k4 hQ'.suffix k2 (fun e => hxp e.symm) hp2
              have := hw hpq
              omega)
          have := tabu_exists_step (E := byScore s rm (fun U => - phi prior U)) (mp := some K) (patience := none) (k := k) (i := i)
            (count := count) (log := log) (P := fun res => ∃ e, res = .error e) hc m1 h3 (fun h => by simp [outOfPatience] at h)
            (fun _ => ⟨pick, drop, e, by simpa using h⟩)
          obtain ⟨p1, d1, e1, h1⟩ := this
          exact ⟨k + 1, p1, d1, e1, h1⟩
    · obtain ⟨r, q2, t2, c', hr, hup, hQ'⟩ := tabu_can_pick hQ hp hpq hlen hdur c
      obtain ⟨r', g', u', m1, m2, m3⟩ := target hI
      exact accept hr hup hQ' m1 m2 m3

/-- With an unusable tabu list the first iteration does not complete. -/
theorem tabuLoop_first_fails {S : Type} [LinearOrder S] {E : SearchEnv S} {others : List Label} {patience : Option ℤ} {pick drop : Nat → Nat}
    (hbad : length ≤ 0 ∨ duration = 0) (k i : Nat) (g : NetworkGraph) (best : S) (count c : Nat) (log : List (TabuStep S)) :
    ∃ e, E.tabuLoop n others mp patience length duration pick drop (k + 1) i g best count [] [] c log = .error e := by
  rw [tabuLoop]
  cases hc : tabuPick others [] [] (pick i) with
  | error e => exact ⟨e, rfl⟩
  | ok o =>
    obtain ⟨p, q1, t1⟩ := o
    have hq1 : q1 = [] ∧ t1 = [] := by
      unfold tabuPick at hc
      simp only at hc
      split at hc
      · cases hch : choice (others.filter (fun l => decide (l ∉ ([] : List Label)))) (pick i) with
        | error e => rw [hch] at hc; simp at hc
        | ok x =>
          rw [hch] at hc
          simp only [Except.bind_ok', pure, Except.pure, Except.ok.injEq, Prod.mk.injEq] at hc
          exact ⟨hc.2.1.symm, hc.2.2.symm⟩
      · simp [tabuPop, queueGet] at hc
    obtain ⟨rfl, rfl⟩ := hq1
    simp only [Except.bind_ok']
    cases ht : E.tryMove n mp g best p (drop i) with
    | error e => exact ⟨e, rfl⟩
    | ok out =>
      have : ∃ e, tabuUpdate length duration [] [] p c = .error e := by
        unfold tabuUpdate tabuRoom
        by_cases hl : length ≤ 0
        · simp [hl, tabuPop, queueGet]
        · have hd := hbad.resolve_left hl
          simp [hl, hd]
      obtain ⟨e, he⟩ := this
      exact ⟨e, by simp only [Except.bind_ok', he]; rfl⟩

/-- **C106** With `patience` unset, tabu search returns for every number of iterations, every score of the parent sets and all random draws, if
and only if some other variable is free to be tried as a parent, `max_parents` is unset or positive, `tabu_length` is unset or positive, and
`tabu_rules_duration` is unset or not 0. -/
theorem tabu_returns_iff {tl td : Option ℤ} (hS : SearchInput s rm known) (hn : n ∈ s.labels) :
    (∀ (iterations : Nat) (f : Finset Label → ℤ) (pick drop : Nat → Nat),
      ∃ out, (⟨s, rm, scoreBy f⟩ : SearchEnv ℤ).tabu n mp iterations none tl td pick drop = .ok out) ↔
    (freeParents s known n ≠ ∅ ∧ (∀ k, mp = some k → 1 ≤ k) ∧ (∀ k, tl = some k → 1 ≤ k) ∧ ∀ k, td = some k → k ≠ 0) := by
  constructor
  · intro H
    -- the start of the search
    obtain ⟨j, prior, s0, g0, h1, h2, h3, h4, h5⟩ := search_start (E := byScore s rm (fun _ => 0)) (n := n) (byScore_ready hS)
      (byScore_known hS) hn byScore_scorable
    have hne0 : freeParents s known n ≠ ∅ := by
      intro h0
      obtain ⟨out, ho⟩ := H 1 (fun _ => 0) (fun _ => 0) (fun _ => 0)
      rw [tabu_blocks_without_candidates (byScore_ready hS) (byScore_known hS) hn byScore_scorable h0 (by omega)] at ho
      cases ho
    have hne := others_nonempty (rm := rm) (f := fun U => - phi prior U) h3 (Finset.nonempty_iff_ne_empty.2 hne0)
    have hpos := List.length_pos_iff.2 hne
    obtain ⟨j', prior', s1, g1, h1', h2', h3', h4', h5'⟩ := search_start (E := byScore s rm (fun U => - phi prior U)) (n := n)
      (byScore_ready hS) (byScore_known hS) hn byScore_scorable
    have hjj : j = j' := by rw [h1] at h1'; exact Except.ok.inj h1'
    subst hjj
    have hpp : prior = prior' := by
      have : (byScore s rm (fun _ => 0)).priorParents j = (byScore s rm (fun U => - phi prior U)).priorParents j := rfl
      rw [this, h2'] at h2; exact (Except.ok.inj h2).symm
    subst hpp
    have hI := AInv.of_sinv (h5' mp)
    have hs1 : - phi prior prior.toFinset = s1 := by
      have := (h5' mp).score _ (byScore_scoreOf (f := fun U => - phi prior U))
      exact Except.ok.inj this
    have hrun : ∀ k pick drop, (byScore s rm (fun U => - phi prior U)).tabu n mp k none tl td pick drop =
        (do
          let (g, log) ← (byScore s rm (fun U => - phi prior U)).tabuLoop n ((byScore s rm (fun U => - phi prior U)).otherNodes n prior) mp none
            (tl.getD ((byScore s rm (fun U => - phi prior U)).otherNodes n prior).length)
            (td.getD ((byScore s rm (fun U => - phi prior U)).otherNodes n prior).length) pick drop k 0 g1 s1 0 [] [] 0 []
          return (g.edges, s1, log)) := by
      intro k pick drop
      unfold tabu
      rw [h1]
      simp only [Except.bind_ok', h2', h4']
    have hfirst : ¬ (tl.getD ((byScore s rm (fun U => - phi prior U)).otherNodes n prior).length ≤ 0 ∨
        td.getD ((byScore s rm (fun U => - phi prior U)).otherNodes n prior).length = 0) := by
      intro hbad
      obtain ⟨out, ho⟩ := H 1 (fun U => - phi prior U) (fun _ => 0) (fun _ => 0)
      obtain ⟨e, he⟩ := tabuLoop_first_fails (E := byScore s rm (fun U => - phi prior U)) (n := n) (mp := mp)
        (others := (byScore s rm (fun U => - phi prior U)).otherNodes n prior) (patience := none) (pick := fun _ => 0) (drop := fun _ => 0)
        hbad 0 0 g1 s1 0 0 []
      have := hrun 1 (fun _ => 0) (fun _ => 0)
      rw [he] at this
      rw [this] at ho
      cases ho
    push Not at hfirst
    refine ⟨hne0, ?_, ?_, ?_⟩
    · rintro K rfl
      by_contra hK
      have hnn := phi_nonneg (prior := prior) prior.toFinset
      obtain ⟨F, hF⟩ := Int.eq_ofNat_of_zero_le hnn
      obtain ⟨k, pick, drop, e, he⟩ := tabu_can_fail (rm := rm) (K := K) hS hn (fun p hp => mem_otherNodes.1 hp)
        (fun p hp hpn => by
          by_cases h : p ∈ prior
          · exact Or.inl h
          · exact Or.inr (mem_otherNodes.2 ⟨hp, hpn, h⟩)) hne (by omega) hfirst.1 hfirst.2 F 0 g1 prior 0 [] [] [] 0 [] hI
        (QInv.empty _ _) hF
      obtain ⟨out, ho⟩ := H k (fun U => - phi prior U) pick drop
      have := hrun k pick drop
      rw [← hs1, he] at this
      rw [this] at ho
      cases ho
    · rintro k rfl
      have := hfirst.1
      simp only [Option.getD_some] at this
      omega
    · rintro k rfl
      exact hfirst.2
  · rintro ⟨c1, c2, c3, c4⟩ iterations f pick drop
    obtain ⟨es, st, steps, h⟩ := tabu_never_blocks_partial (E := byScore s rm f) (iterations := iterations) (patience := none) (pick := pick)
      (drop := drop) (byScore_ready hS) (byScore_known hS) hn byScore_scorable c2 (Finset.nonempty_iff_ne_empty.2 c1) c3 c4
    exact ⟨_, h⟩

/-- The hypotheses are met by three variables with the known edge Y → X; the conditions hold for the default arguments, and fail for
`max_parents = 0`, where this run of 3 iterations exchanges the known parent, removes the new one and then raises. -/
example : freeParents demoSearch.struct demoKnown "X" ≠ ∅ ∧ (∀ k, (none : Option ℤ) = some k → 1 ≤ k) :=
  ⟨by decide, by simp⟩
example : (⟨demoSearch.struct, demoSearch.removable, scoreBy (fun U => if "Y" ∈ U then 0 else if "Z" ∈ U then 1 else 2)⟩ : SearchEnv ℤ).tabu "X" (some 0)
    3 none none none (fun _ => 0) (fun _ => 0) = .error .indexError := rfl

end PyCTBN
