import Verif.Props.TimeUnit

/-!
# C123, C124: how states are numbered and in which order the variables are listed does not matter to the score
-/

namespace PyCTBN
open Spec FamScore SearchEnv

/-- A renumbering of states applied to a recorded value; the terminator -1 stays. -/
def Spec.renum (π : Nat → Nat) (z : ℤ) : ℤ := if 0 ≤ z then (π z.toNat : ℤ) else z

/-- `(s', t')` records the same process as `(s, t)`: the same variables with the same numbers of states, possibly listed in another order; row by row
the same durations and, up to a renumbering `π l` of the states of each variable `l`, the same current and next states. -/
structure Spec.SameProcess (π : Label → Equiv.Perm Nat) (s : Structure) (t : Trajectory) (s' : Structure) (t' : Trajectory) : Prop where
  labels : ∀ l, l ∈ s'.labels ↔ l ∈ s.labels
  cards : ∀ l ∈ s.labels, s'.getStatesNumber l = s.getStatesNumber l
  fits : ∀ l ∈ s.labels, ∀ v, s.getStatesNumber l = .ok v → ∀ x, π l x < v ↔ x < v
  times : t'.times = t.times
  rows : List.Forall₂ (fun r r' => ∀ l ∈ s.labels, stateOf s' r' l = (stateOf s r l).map (renum (π l)) ∧
    nextOf s' r' l = (nextOf s r l).map (renum (π l))) t.rows t'.rows

section
variable {π : Label → Equiv.Perm Nat} {s s' : Structure} {t t' : Trajectory} {n : Label} {P P' : List Label} {c : Nat}

theorem renum_nat (p : Nat → Nat) (x : Nat) : renum p (x : ℤ) = (p x : ℤ) := by
  unfold renum
  rw [if_pos (Int.natCast_nonneg x), Int.toNat_natCast]

/-- The assignment of the parents in the other listing and numbering. -/
def recode (π : Label → Equiv.Perm Nat) (P P' : List Label) (u : List Nat) : List Nat :=
  P'.map (fun l => π l ((u[P.idxOf l]?).getD 0))

theorem recode_map (hPP : ∀ l, l ∈ P' ↔ l ∈ P) (f : Label → Nat) : recode π P P' (P.map f) = P'.map (fun l => π l (f l)) := by
  unfold recode
  apply List.map_congr_left
  intro l hl
  rw [List.getElem?_map, List.getElem?_idxOf ((hPP l).1 hl)]
  rfl

theorem as_map {u : List Nat} (hnd : P.Nodup) (hu : u.length = P.length) : u = P.map (fun l => (u[P.idxOf l]?).getD 0) := by
  apply List.ext_getElem (by simp [hu])
  intro k h1 h2
  have hk : k < P.length := by omega
  rw [List.getElem_map, hnd.idxOf_getElem k hk, List.getElem?_eq_getElem h1]
  rfl

theorem recode_inv (hnd : P.Nodup) (hPP : ∀ l, l ∈ P' ↔ l ∈ P) {u : List Nat} (hu : u.length = P.length) :
    recode (fun l => (π l).symm) P' P (recode π P P' u) = u := by
  have h1 := as_map hnd hu
  conv_lhs => rw [h1, recode_map hPP]
  rw [recode_map (fun l => (hPP l).symm)]
  simp only [Equiv.symm_apply_apply]
  exact h1.symm

theorem row_recoded (hw : WFStructure s) (hw' : WFStructure s') (ht : DataOK s t) (ht' : DataOK s' t') (h : SameProcess π s t s' t')
    (hn : n ∈ s.labels) (hP : ∀ l ∈ P, l ∈ s.labels) (hnd : P.Nodup) (hPP : ∀ l, l ∈ P' ↔ l ∈ P) {r r' : List ℤ} (hr : r ∈ t.rows)
    (hr' : r' ∈ t'.rows) (hrr : ∀ l ∈ s.labels, stateOf s' r' l = (stateOf s r l).map (renum (π l))) (x : Nat) {u : List Nat}
    (hu : u.length = P.length) :
    rowMatches s' n P' (π n x) (recode π P P' u) r' = rowMatches s n P x u r := by
  have hnat : ∀ l ∈ s.labels, natState s' r' l = π l (natState s r l) := by
    intro l hl
    obtain ⟨v, -, hv⟩ := getStatesNumber_mem hw hl
    obtain ⟨x, hx, -⟩ := ht.cur r hr l hl v hv
    unfold natState
    rw [hrr l hl, hx]
    simp [renum_nat]
  rw [Bool.eq_iff_iff, rowMatches_iff hw' ht' hr' ((h.labels n).2 hn) (fun l hl => (h.labels l).2 (hP l ((hPP l).1 hl))),
    rowMatches_iff hw ht hr hn hP, hnat n hn, (π n).injective.eq_iff]
  refine and_congr_right (fun _ => ?_)
  have e1 : P'.map (natState s' r') = recode π P P' (P.map (natState s r)) := by
    rw [recode_map hPP]
    exact List.map_congr_left (fun l hl => hnat l (hP l ((hPP l).1 hl)))
  rw [e1]
  constructor
  · intro e
    have := congrArg (recode (fun l => (π l).symm) P' P) e
    rwa [recode_inv hnd hPP (by simp), recode_inv hnd hPP hu] at this
  · intro e; rw [e]

theorem rows_zip (h : SameProcess π s t s' t') : List.Forall₂ (fun p p' => p'.1 = p.1 ∧ (p.2 ∈ t.rows ∧ p'.2 ∈ t'.rows) ∧ ∀ l ∈ s.labels,
    stateOf s' p'.2 l = (stateOf s p.2 l).map (renum (π l)) ∧ nextOf s' p'.2 l = (nextOf s p.2 l).map (renum (π l)))
    (t.times.zip t.rows) (t'.times.zip t'.rows) := by
  rw [h.times]
  have key : ∀ (ts : List ℚ) (a b : List (List ℤ)), (∀ r ∈ a, r ∈ t.rows) → (∀ r ∈ b, r ∈ t'.rows) →
      List.Forall₂ (fun r r' => ∀ l ∈ s.labels, stateOf s' r' l = (stateOf s r l).map (renum (π l)) ∧
        nextOf s' r' l = (nextOf s r l).map (renum (π l))) a b →
      List.Forall₂ (fun p p' => p'.1 = p.1 ∧ (p.2 ∈ t.rows ∧ p'.2 ∈ t'.rows) ∧ ∀ l ∈ s.labels,
        stateOf s' p'.2 l = (stateOf s p.2 l).map (renum (π l)) ∧ nextOf s' p'.2 l = (nextOf s p.2 l).map (renum (π l))) (ts.zip a) (ts.zip b) := by
    intro ts a b ha hb hab
    induction hab generalizing ts with
    | nil => simp
    | @cons r r' a b h1 _ ih =>
      cases ts with
      | nil => simp
      | cons d ts =>
        rw [List.zip_cons_cons, List.zip_cons_cons]
        exact List.Forall₂.cons ⟨rfl, ⟨ha r (by simp), hb r' (by simp)⟩, h1⟩
          (ih ts (fun q hq => ha q (by simp [hq])) (fun q hq => hb q (by simp [hq])))
  exact key _ _ _ (fun _ h => h) (fun _ h => h) h.rows

theorem filter_forall2 {α β : Type} {R : α → β → Prop} {p : α → Bool} {q : β → Bool} {a : List α} {b : List β} (h : List.Forall₂ R a b)
    (hpq : ∀ x y, R x y → q y = p x) : List.Forall₂ R (a.filter p) (b.filter q) := by
  induction h with
  | nil => simp
  | @cons x y a b h1 _ ih =>
    rw [List.filter_cons, List.filter_cons, hpq x y h1]
    split
    · exact .cons h1 ih
    · exact ih

theorem residence_recoded (hw : WFStructure s) (hw' : WFStructure s') (ht : DataOK s t) (ht' : DataOK s' t') (h : SameProcess π s t s' t')
    (hn : n ∈ s.labels) (hP : ∀ l ∈ P, l ∈ s.labels) (hnd : P.Nodup) (hPP : ∀ l, l ∈ P' ↔ l ∈ P) (x : Nat) {u : List Nat} (hu : u.length = P.length) :
    residence s' t' n P' (π n x) (recode π P P' u) = residence s t n P x u := by
  unfold residence
  have := filter_forall2 (rows_zip h) (p := fun r => rowMatches s n P x u r.2) (q := fun r => rowMatches s' n P' (π n x) (recode π P P' u) r.2)
    (fun p p' hp => row_recoded hw hw' ht ht' h hn hP hnd hPP hp.2.1.1 hp.2.1.2 (fun l hl => (hp.2.2 l hl).1) x hu)
  generalize (t.times.zip t.rows).filter _ = a at this ⊢
  generalize (t'.times.zip t'.rows).filter _ = b at this ⊢
  induction this with
  | nil => rfl
  | cons h1 _ ih => simp only [List.map_cons, List.sum_cons, ih, h1.1]

theorem transitions_recoded (hw : WFStructure s) (hw' : WFStructure s') (ht : DataOK s t) (ht' : DataOK s' t') (h : SameProcess π s t s' t')
    (hn : n ∈ s.labels) (hP : ∀ l ∈ P, l ∈ s.labels) (hnd : P.Nodup) (hPP : ∀ l, l ∈ P' ↔ l ∈ P) (x y : Nat) {u : List Nat} (hu : u.length = P.length) :
    transitions s' t' n P' (π n x) (π n y) (recode π P P' u) = transitions s t n P x y u := by
  unfold transitions
  have hrows : List.Forall₂ (fun r r' => (r ∈ t.rows ∧ r' ∈ t'.rows) ∧ ∀ l ∈ s.labels, stateOf s' r' l = (stateOf s r l).map (renum (π l)) ∧
    nextOf s' r' l = (nextOf s r l).map (renum (π l))) t.rows t'.rows := by
    have := h.rows
    rw [List.forall₂_iff_get] at this ⊢
    exact ⟨this.1, fun i h1 h2 => ⟨⟨List.get_mem _ _, List.get_mem _ _⟩, this.2 i h1 h2⟩⟩
  have := filter_forall2 hrows (p := fun r => rowMatches s n P x u r && decide (nextOf s r n = some (y : ℤ)))
    (q := fun r => rowMatches s' n P' (π n x) (recode π P P' u) r && decide (nextOf s' r n = some ((π n y : Nat) : ℤ))) (by
      intro r r' hr
      rw [row_recoded hw hw' ht ht' h hn hP hnd hPP hr.1.1 hr.1.2 (fun l hl => (hr.2 l hl).1) x hu, (hr.2 n hn).2]
      congr 1
      rw [decide_eq_decide]
      obtain ⟨v, -, hv⟩ := getStatesNumber_mem hw hn
      rcases ht.nxt r hr.1.1 n hn v hv with h1 | ⟨z, h1, -⟩
      · rw [h1]
        simp only [Option.map_some, Option.some.injEq]
        have e1 : renum (π n) (-1) = -1 := rfl
        rw [e1]
        constructor <;> intro e <;> omega
      · rw [h1]
        simp only [Option.map_some, Option.some.injEq, renum_nat, Nat.cast_inj, (π n).injective.eq_iff])
  exact this.length_eq.symm

theorem marginal_recoded (hw : WFStructure s) (hw' : WFStructure s') (ht : DataOK s t) (ht' : DataOK s' t') (h : SameProcess π s t s' t')
    (hn : n ∈ s.labels) (hcn : s.getStatesNumber n = .ok c) (hP : ∀ l ∈ P, l ∈ s.labels) (hnd : P.Nodup) (hPP : ∀ l, l ∈ P' ↔ l ∈ P) {u : List Nat}
    (hu : u.length = P.length) (τ α : ℝ) :
    (observed s' t' n P' c (recode π P P' u)).marginal τ α c = (observed s t n P c u).marginal τ α c := by
  have hfit := h.fits n hn c hcn
  have hmap : (Finset.range c).map (π n).toEmbedding = Finset.range c := by
    ext y
    simp only [Finset.mem_map_equiv, Finset.mem_range]
    rw [← hfit, Equiv.apply_symm_apply]
  have herase : ∀ x, (Finset.range c).erase (π n x) = ((Finset.range c).erase x).map (π n).toEmbedding := by
    intro x
    rw [Finset.map_erase, hmap]; rfl
  have hcount : ∀ x y, (observed s' t' n P' c (recode π P P' u)).count (π n x) (π n y) = (observed s t n P c u).count x y := by
    intro x y
    simp only [observed, (π n).injective.eq_iff]
    by_cases hxy : x = y
    · rw [if_pos hxy, if_pos hxy, herase, Finset.sum_map]
      exact Finset.sum_congr rfl (fun z _ => transitions_recoded hw hw' ht ht' h hn hP hnd hPP x z hu)
    · rw [if_neg hxy, if_neg hxy, transitions_recoded hw hw' ht ht' h hn hP hnd hPP x y hu]
  have htime : ∀ x, (observed s' t' n P' c (recode π P P' u)).time (π n x) = (observed s t n P c u).time x :=
    fun x => residence_recoded hw hw' ht ht' h hn hP hnd hPP x hu
  unfold Stats.marginal
  conv_lhs => rw [← hmap, Finset.prod_map]
  apply Finset.prod_congr rfl
  intro x _
  rw [Equiv.coe_toEmbedding, hcount, htime]
  congr 1
  unfold targetMarginal
  rw [hmap, herase, Finset.prod_map, Finset.sum_map]
  simp only [Equiv.coe_toEmbedding, hcount]

theorem inRange_recode (h : SameProcess π s t s' t') {ps ps' : List Nat} (hps : ps.map Except.ok = P.map s.getStatesNumber)
    (hps' : ps'.map Except.ok = P'.map s'.getStatesNumber) (hP : ∀ l ∈ P, l ∈ s.labels) (hPP : ∀ l, l ∈ P' ↔ l ∈ P) {u : List Nat}
    (hu : InRangeAssign ps u) : InRangeAssign ps' (recode π P P' u) := by
  have hlen : ps.length = P.length := by simpa using congrArg List.length hps
  have hlen' : ps'.length = P'.length := by simpa using congrArg List.length hps'
  unfold InRangeAssign
  rw [List.forall₂_iff_get]
  refine ⟨by simp [recode, hlen'], ?_⟩
  intro i h1 h2
  have hi : i < P'.length := by omega
  have hmem : P'[i] ∈ P := (hPP _).1 (List.getElem_mem hi)
  have hk := List.idxOf_lt_length_of_mem hmem
  have hk2 : P.idxOf P'[i] < ps.length := by omega
  have hk1 : P.idxOf P'[i] < u.length := by have := hu.length_eq; omega
  have hlt := (List.forall₂_iff_get.1 hu).2 _ hk1 hk2
  simp only [List.get_eq_getElem] at hlt ⊢
  have e1 : s.getStatesNumber P'[i] = .ok ps[P.idxOf P'[i]] := by
    have := congrArg (fun l' => l'[P.idxOf P'[i]]?) hps
    simp only [List.getElem?_map, List.getElem?_eq_getElem hk2, List.getElem?_eq_getElem hk, Option.map_some, List.getElem_idxOf,
      Option.some.injEq] at this
    exact this.symm
  have e2 : s'.getStatesNumber P'[i] = .ok ps'[i] := by
    have := congrArg (fun l' => l'[i]?) hps'
    simp only [List.getElem?_map, List.getElem?_eq_getElem h2, List.getElem?_eq_getElem hi, Option.map_some, Option.some.injEq] at this
    exact this.symm
  rw [h.cards _ (hP _ hmem), e1] at e2
  have e3 := Except.ok.inj e2
  unfold recode
  rw [List.getElem_map, List.getElem?_eq_getElem hk1, Option.getD_some, ← e3, h.fits _ (hP _ hmem) _ e1]
  exact hlt

theorem meshRest_nodup (ps : List Nat) : (meshRest ps).Nodup := by
  rw [List.nodup_iff_getElem?_ne_getElem?]
  intro i j hij hj heq
  have hji := List.getElem?_eq_getElem hj
  have h1 := (meshRest_getElem?.1 hji).2
  have h2 := (meshRest_getElem?.1 (heq.trans hji)).2
  omega

theorem mem_meshRest (ps u : List Nat) : u ∈ meshRest ps ↔ InRangeAssign ps u := by
  rw [List.mem_iff_getElem?]
  exact ⟨fun ⟨r, hr⟩ => (meshRest_getElem?.1 hr).1, fun h => ⟨_, meshRest_getElem?.2 ⟨h, rfl⟩⟩⟩

theorem SameProcess.symm (h : SameProcess π s t s' t') (hw : WFStructure s) (ht : DataOK s t) :
    SameProcess (fun l => (π l).symm) s' t' s t where
  labels := fun l => (h.labels l).symm
  cards := fun l hl => (h.cards l ((h.labels l).1 hl)).symm
  fits := by
    intro l hl v hv x
    have hl' := (h.labels l).1 hl
    rw [← h.fits l hl' v (by rw [← h.cards l hl']; exact hv), Equiv.apply_symm_apply]
  times := h.times.symm
  rows := by
    have hback : ∀ (l : Label) (z : ℤ), (z = -1 ∨ ∃ x : Nat, z = (x : ℤ)) → renum (π l).symm (renum (π l) z) = z := by
      rintro l z (rfl | ⟨x, rfl⟩)
      · rfl
      · rw [renum_nat, renum_nat, Equiv.symm_apply_apply]
    have h1 := h.rows
    rw [List.forall₂_iff_get] at h1 ⊢
    refine ⟨h1.1.symm, fun i i1 i2 l hl => ?_⟩
    have hl' := (h.labels l).1 hl
    obtain ⟨e1, e2⟩ := h1.2 i i2 i1 l hl'
    obtain ⟨v, -, hv⟩ := getStatesNumber_mem hw hl'
    have hr : t.rows.get ⟨i, i2⟩ ∈ t.rows := List.get_mem _ _
    rw [e1, e2]
    obtain ⟨x, hx, -⟩ := ht.cur _ hr l hl' v hv
    refine ⟨by rw [hx]; simp only [Option.map_some]; rw [hback l _ (.inr ⟨x, rfl⟩)], ?_⟩
    rcases ht.nxt _ hr l hl' v hv with hx | ⟨x, hx, -⟩
    · rw [hx]; simp only [Option.map_some]; rw [hback l _ (.inl rfl)]
    · rw [hx]; simp only [Option.map_some]; rw [hback l _ (.inr ⟨x, rfl⟩)]

/-- The marginal likelihood of a process does not depend on how it is recorded. -/
theorem marginals_recoded (hw : WFStructure s) (hw' : WFStructure s') (ht : DataOK s t) (ht' : DataOK s' t') (h : SameProcess π s t s' t')
    (hn : n ∈ s.labels) (hcn : s.getStatesNumber n = .ok c) (hP : ∀ l ∈ P, l ∈ s.labels) (hnd : P.Nodup) (hnd' : P'.Nodup)
    (hPP : ∀ l, l ∈ P' ↔ l ∈ P) {ps ps' : List Nat} (hps : ps.map Except.ok = P.map s.getStatesNumber)
    (hps' : ps'.map Except.ok = P'.map s'.getStatesNumber) (τ α : ℝ) :
    ((meshRest ps').map (fun u => (observed s' t' n P' c u).marginal τ α c)).prod =
      ((meshRest ps).map (fun u => (observed s t n P c u).marginal τ α c)).prod := by
  have hlen : ps.length = P.length := by simpa using congrArg List.length hps
  have hlen' : ps'.length = P'.length := by simpa using congrArg List.length hps'
  rw [← List.prod_toFinset _ (meshRest_nodup ps'), ← List.prod_toFinset _ (meshRest_nodup ps)]
  symm
  refine Finset.prod_bij' (fun u _ => recode π P P' u) (fun u _ => recode (fun l => (π l).symm) P' P u) ?_ ?_ ?_ ?_ ?_
  · intro u hu
    rw [List.mem_toFinset, mem_meshRest] at hu ⊢
    exact inRange_recode h hps hps' hP hPP hu
  · intro u hu
    rw [List.mem_toFinset, mem_meshRest] at hu ⊢
    exact inRange_recode (SameProcess.symm h hw ht) hps' hps (fun l hl => (h.labels l).2 (hP l ((hPP l).1 hl))) (fun l => (hPP l).symm) hu
  · intro u hu
    rw [List.mem_toFinset, mem_meshRest] at hu
    exact recode_inv hnd hPP (by rw [← hlen]; exact hu.length_eq)
  · intro u hu
    rw [List.mem_toFinset, mem_meshRest] at hu
    have := recode_inv (π := fun l => (π l).symm) hnd' (fun l => (hPP l).symm) (u := u) (by rw [← hlen']; exact hu.length_eq)
    simpa using this
  · intro u hu
    rw [List.mem_toFinset, mem_meshRest] at hu
    exact (marginal_recoded hw hw' ht ht' h hn hcn hP hnd hPP (by rw [← hlen]; exact hu.length_eq) τ α).symm

end

/-- **C124** The score of a variable with given parents does not depend on how the process is recorded: neither on the order in which the
variables are listed nor on how the states of each are numbered (cardinalities for which the score is right, see C122). -/
theorem score_of_same_process {π : Label → Equiv.Perm Nat} {s s' : Structure} {g g' : NetworkGraph} (hg : Reach s g) (hg' : Reach s' g')
    {t t' : Trajectory} (ht : DataOK s t) (ht' : DataOK s' t') (h : SameProcess π s t s' t') (htimes : ∀ d ∈ t.times, 0 ≤ d)
    {n : Label} (hn : n ∈ s.labels) {c : Nat} (hcn : s.getStatesNumber n = .ok c) (hc : 2 ≤ c)
    (hcards : ∀ l ∈ parentsOf g n, s.getStatesNumber l = .ok 1 ∨ s.getStatesNumber l = .ok c)
    (hpar : ∀ l, l ∈ parentsOf g' n ↔ l ∈ parentsOf g n)
    {tau alpha : ℝ} (hτ : 0 < tau) (hα : 0 < alpha) (R R' : List (List Bool)) :
    ∃ v g1 g1', (sbEnv s t tau alpha R).scoreGraph n g = .ok (v, g1) ∧ (sbEnv s' t' tau alpha R').scoreGraph n g' = .ok (v, g1') := by
  obtain ⟨hI, hs⟩ := hg.inv
  obtain ⟨hI', hs'⟩ := hg'.inv
  have hw : WFStructure s := hs ▸ hI.cs.toWFStructure
  have hw' : WFStructure s' := hs' ▸ hI'.cs.toWFStructure
  have hP : ∀ l ∈ parentsOf g n, l ∈ s.labels := fun x hx => hs ▸ mem_parentsOf hx
  have hnd : (parentsOf g n).Nodup := List.Nodup.filter _ (hs ▸ hw.nodup)
  have hnd' : (parentsOf g' n).Nodup := List.Nodup.filter _ (hs' ▸ hw'.nodup)
  obtain ⟨c1, i, ps, is, e1, e2, e3, e4, e5⟩ := estimate_unfold hg hn
  obtain ⟨c1', i', ps', is', e1', e2', e3', e4', e5'⟩ := estimate_unfold hg' ((h.labels n).2 hn)
  have hcn' : s'.getStatesNumber n = .ok c := by rw [h.cards n hn]; exact hcn
  have hpp : ∀ p ∈ ps, p = 1 ∨ p = c := by
    intro p hp
    have : Except.ok p ∈ (parentsOf g n).map s.getStatesNumber := by rw [← e3]; exact List.mem_map_of_mem hp
    obtain ⟨l, hl, hlv⟩ := List.mem_map.1 this
    rcases hcards l hl with e | e <;> rw [e] at hlv <;> cases hlv
    · exact .inl rfl
    · exact .inr rfl
  have hpp' : ∀ p ∈ ps', p = 1 ∨ p = c := by
    intro p hp
    have : Except.ok p ∈ (parentsOf g' n).map s'.getStatesNumber := by rw [← e3']; exact List.mem_map_of_mem hp
    obtain ⟨l, hl, hlv⟩ := List.mem_map.1 this
    have hl := (hpar l).1 hl
    rw [h.cards l (hP l hl)] at hlv
    rcases hcards l hl with e | e <;> rw [e] at hlv <;> cases hlv
    · exact .inl rfl
    · exact .inr rfl
  obtain ⟨v, g1, k1, k2⟩ := score_is_log_marginal_partial hg ht htimes hn hcn hc e3 hpp hτ hα R (meshRest_nodup ps) (mem_meshRest ps)
  obtain ⟨v', g1', k1', k2'⟩ := score_is_log_marginal_partial hg' ht' (by rw [h.times]; exact htimes) ((h.labels n).2 hn) hcn' hc e3' hpp' hτ hα R'
    (meshRest_nodup ps') (mem_meshRest ps')
  have : v' = v := by
    apply Real.exp_injective
    rw [k2, k2', marginals_recoded hw hw' ht ht' h hn hcn hP hnd hnd' hpar e3 e3']
  subst this
  exact ⟨v', g1, g1', k1, k1'⟩

/-- **C123** Score-based estimation does not depend on how the states of the variables are numbered: the same draws give the same edges, report
and estimator (variables with equally many states). -/
theorem state_numbering_irrelevant {π : Label → Equiv.Perm Nat} {e : Estimator} {rem : List (List Bool)} {known : List Edge} {t t' : Trajectory}
    {c : Nat} (hU : UniformData e.struct.cleanEdges t c) (ht' : DataOK e.struct.cleanEdges t') (hc : 2 ≤ c)
    (h : SameProcess π e.struct.cleanEdges t e.struct.cleanEdges t') {τ α : ℝ} (hτ : 0 < τ) (hα : 0 < α) {a : SBArgs} {order : Option (List Label)}
    {picks drops : Label → Nat → Nat} (ho : ∀ o, order = some o → o.Perm e.struct.labels) (hI : SearchInput e.struct.cleanEdges rem known) :
    estimateStructure (famScoreOn t' τ α) rem e a order picks drops = estimateStructure (famScoreOn t τ α) rem e a order picks drops := by
  have hcn : ∀ l ∈ e.struct.cleanEdges.labels, e.struct.cleanEdges.getStatesNumber l = .ok c := by
    intro l hl
    obtain ⟨w, hw', e1⟩ := getStatesNumber_mem hU.wf hl
    rw [e1, hU.cards w hw']
  have key : ∀ m ∈ e.struct.labels, ∀ g g0, Reach e.struct.cleanEdges g0 → g0.fastInit m = .ok g →
      ∃ v, famScoreOn t' τ α m g = .ok v ∧ famScoreOn t τ α m g = .ok v := by
    intro m hm g g0 h1 h2
    obtain ⟨hI0, hs0⟩ := h1.inv
    obtain ⟨v, g1, g1', k1, k2⟩ := score_of_same_process h1 h1 hU.data ht' h hU.times hm (hcn m hm) hc
      (fun l hl => .inr (hcn l (hs0 ▸ mem_parentsOf hl))) (fun _ => Iff.rfl) hτ hα [] []
    unfold scoreGraph at k1 k2
    rw [h2] at k1 k2
    simp only [Except.bind_ok'] at k1 k2
    refine ⟨v, ?_, ?_⟩
    · change (famScoreOn t' τ α m g >>= fun x => pure (x, g)) = _ at k2
      cases hx : famScoreOn t' τ α m g with
      | error e => rw [hx] at k2; cases k2
      | ok w => rw [hx] at k2; cases k2; rfl
    · change (famScoreOn t τ α m g >>= fun x => pure (x, g)) = _ at k1
      cases hx : famScoreOn t τ α m g with
      | error e => rw [hx] at k1; cases k1
      | ok w => rw [hx] at k1; cases k1; rfl
  refine estimate_ranking ho hI (fun m hm => ⟨fun g hg x => ?_, fun g h hg hh a b a' b' ha hb ha' hb' => ?_⟩)
  · obtain ⟨g0, h1, -, h2⟩ := hg
    obtain ⟨v, k1, k2⟩ := key m hm g g0 h1 h2
    rw [k1, k2]
  · obtain ⟨g0, h1, -, h2⟩ := hg
    obtain ⟨g1, h3, -, h4⟩ := hh
    obtain ⟨v, k1, k2⟩ := key m hm g g0 h1 h2
    obtain ⟨w, k3, k4⟩ := key m hm h g1 h3 h4
    rw [ha] at k1; rw [hb] at k3; rw [ha'] at k2; rw [hb'] at k4
    cases k1; cases k3; cases k2; cases k4
    simp

/-! ### Two recordings of one process -/

/-- Exchange the two states of `X`. -/
def flipX : Label → Equiv.Perm Nat := fun l => if l = "X" then Equiv.swap 0 1 else Equiv.refl _

theorem flipX_fits : ∀ l ∈ unitS.labels, ∀ v, unitS.getStatesNumber l = .ok v → ∀ x, flipX l x < v ↔ x < v := by
  intro l hl v hv x
  have h2 : v = 2 := by
    simp only [unitS, List.mem_cons, List.not_mem_nil, or_false] at hl
    rcases hl with rfl | rfl <;> (cases hv; rfl)
  subst h2
  unfold flipX
  split
  · rw [Equiv.swap_apply_def]
    split_ifs <;> omega
  · rfl

/-- The same variables, `X` with its states exchanged, listed in the other order. -/
example : SameProcess flipX unitS (unitT 1 2) unitS ⟨[1, 2], [[1, 0, 1, 1], [1, 1, 0, 1]], 3⟩ ∧
    SameProcess flipX unitS (unitT 1 2) ⟨["Y", "X"], [0, 1], [2, 2], [], 2⟩ ⟨[1, 2], [[0, 1, 1, 1], [1, 1, 1, 0]], 3⟩ := by
  refine ⟨⟨fun _ => Iff.rfl, fun _ _ => rfl, flipX_fits, rfl, .cons ?_ (.cons ?_ .nil)⟩, ⟨?_, ?_, flipX_fits, rfl, .cons ?_ (.cons ?_ .nil)⟩⟩
  · decide
  · decide
  · intro l; simp [unitS, or_comm]
  · decide
  · decide
  · decide

end PyCTBN
