import Verif.Lemmas.Verdict
import Verif.Lemmas.Combos
import Verif.Spec.Ctpc

/-! The real search follows the search with an always empty cache. -/

namespace PyCTBN
open Spec

theorem setFalse_getFlag {m m' : List (List Bool)} {i j a b : Nat} (h : setFalse m i j = .ok m')
    : getFlag m' a b = if a = i ∧ b = j then .ok false else getFlag m a b := by
  unfold setFalse at h
  cases hi : m[i]? with
  | none => rw [hi] at h; cases h
  | some row =>
    rw [hi] at h
    simp only at h
    split at h
    · rename_i hj
      injection h with h
      subst h
      have hil : i < m.length := by
        by_contra hc
        rw [List.getElem?_eq_none (by omega)] at hi; cases hi
      unfold getFlag
      by_cases ha : a = i
      · subst ha
        have e1 : pyGet (m.set a (row.set j false)) a = .ok (row.set j false) := by
          rw [pyGet_ok]; simp [hil]
        have e2 : pyGet m a = .ok row := by rw [pyGet_ok]; exact hi
        rw [e1, e2]
        simp only [Except.bind_ok', true_and]
        by_cases hb : b = j
        · subst hb
          rw [if_pos rfl, pyGet_ok]; simp [hj]
        · rw [if_neg hb]
          unfold pyGet
          rw [List.getElem?_set_ne (Ne.symm hb)]
      · rw [if_neg (by tauto)]
        have : pyGet (m.set i (row.set j false)) a = pyGet m a := by
          unfold pyGet; rw [List.getElem?_set_ne (Ne.symm ha)]
        rw [this]
    · cases h

namespace CBEnv
variable {E : CBEnv}

/-- everything size `b` with `q` is cached -/
def Avail (b : Nat) (u : List Label) (cache : Cache SetOfCims) (q : Label) : Prop :=
  ∀ R : Finset Label, R ⊆ u.toFinset → q ∉ R → R.card + 1 = b → cache.Has (insert q R)

theorem Avail.mono {b : Nat} {u u' : List Label} {cache cache' : Cache SetOfCims} {q : Label} (h : Avail b u cache q)
    (hu : ∀ x ∈ u', x ∈ u) (hc : ∀ K, cache.Has K → cache'.Has K) : Avail b u' cache' q := by
  intro R hR hq hb
  exact hc _ (h R (fun x hx => List.mem_toFinset.2 (hu x (List.mem_toFinset.1 (hR hx)))) hq hb)

structure LInv (E : CBEnv) (child : Label) (c b : Nat) (u : List Label) (st : CBState) : Prop where
  coherent : E.Coherent child st.cache
  size : ∀ K, st.cache.Has K → K.card ≤ b + 1
  avail : ∀ q ∈ u, (uncached E child c).flag q st.removable = .ok true → Avail b u st.cache q
  origin : ∀ K, st.cache.Has K → K.card = b + 1 → ∃ q ∈ K, st.cache.Has (K.erase q) ∧ Avail b u st.cache q

theorem LInv.shrink {child : Label} {c b : Nat} {u u' : List Label} {st : CBState} (h : LInv E child c b u st)
    (hu : ∀ x ∈ u', x ∈ u) : LInv E child c b u' st := by
  refine ⟨h.coherent, h.size, fun q hq hf => (h.avail q (hu q hq) hf).mono hu (fun _ h => h), ?_⟩
  intro K hK hb
  obtain ⟨q, h1, h2, h3⟩ := h.origin K hK hb
  exact ⟨q, h1, h2, h3.mono hu (fun _ h => h)⟩

/-- One call of the complete test in the loop. -/
theorem test_step {child : Label} {c b : Nat} {u : List Label} {st : CBState} {p : Label} {S : List Label}
    (hw : WFStructure E.struct) (hc : child ∈ E.struct.labels) (hu : ∀ x ∈ u, x ∈ E.struct.labels ∧ x ≠ child)
    (hnd : u.Nodup) (hp : p ∈ u) (hS : S ∈ combos b (u.erase p)) (hI : LInv E child c b u st)
    (hA : Avail b u st.cache p) :
    let r := (E.calls child c).test p S st
    let r' := (uncached E child c).test p S st.removable
    r.1 = r'.1 ∧ r.2.removable = r'.2 ∧ (∀ K, st.cache.Has K → r.2.cache.Has K) ∧
      (∀ q, (uncached E child c).flag q r.2.removable = .ok true → (uncached E child c).flag q st.removable = .ok true) ∧
      ((∃ v, r.1 = .ok v) → LInv E child c b u r.2 ∧ r.2.cache.Has (insert p S.toFinset)) := by
  obtain ⟨hsub, hlen⟩ := mem_combos.1 hS
  have hSu : ∀ q ∈ S, q ∈ u ∧ q ≠ p := by
    intro q hq
    have := (hnd.mem_erase_iff).1 (hsub.subset hq)
    exact ⟨this.2, this.1⟩
  have hSnd : S.Nodup := (hnd.erase p).sublist hsub
  have hT : E.TestArgs p child S := ⟨hw, (hu p hp).1, hc, fun q hq => (hu q (hSu q hq).1).1, (hu p hp).2,
    fun h => (hSu p h).2 rfl, fun h => (hu child (hSu child h).1).2 rfl⟩
  have hcard : S.toFinset.card = b := by rw [List.toFinset_card_of_nodup hSnd, hlen]
  have hpS : p ∉ S.toFinset := by simpa using hT.p_notin
  have hins : (p :: S).toFinset = insert p S.toFinset := List.toFinset_cons
  have hbound : st.cache.Has (p :: S).toFinset → st.cache.Has S.toFinset := by
    intro hK
    rw [hins] at hK
    obtain ⟨q, h1, h2, h3⟩ := hI.origin _ hK (by rw [Finset.card_insert_of_notMem hpS, hcard])
    by_cases hq : q = p
    · subst hq; rwa [Finset.erase_insert hpS] at h2
    · have hqS : q ∈ S.toFinset := by
        rcases Finset.mem_insert.1 h1 with h | h
        · exact absurd h hq
        · exact h
      have := h3 (S.toFinset.erase q)
        (fun x hx => List.mem_toFinset.2 (hSu x (List.mem_toFinset.1 (Finset.mem_of_mem_erase hx))).1)
        (Finset.notMem_erase q _) (by rw [Finset.card_erase_of_mem hqS]; have := Finset.card_pos.2 ⟨q, hqS⟩; omega)
      rwa [Finset.insert_erase hqS] at this
  have hV := verdict_spec hT hI.coherent c
  have hans : (E.verdict st.cache p child S c).1 = E.pureVerdict p child S c := by
    rcases hV.answer with h | ⟨_, h2, h3⟩
    · exact h
    · exact absurd (hbound h2) h3
  have hnil := verdict_nil hT c
  obtain ⟨i, _, hi⟩ := getNodeIndx_mem hw (hu p hp).1
  obtain ⟨j, _, hj⟩ := getNodeIndx_mem hw hc
  have hflag : ∀ q m m', setFalse m i j = .ok m' → (uncached E child c).flag q m' = .ok true →
      (uncached E child c).flag q m = .ok true := by
    intro q m m' hm h
    simp only [uncached, calls] at h ⊢
    cases h1 : E.struct.getNodeIndx q with
    | error e => rw [h1] at h; simp at h
    | ok a =>
      rw [h1, hj] at h
      rw [hj]
      simp only [Except.bind_ok'] at h ⊢
      rw [setFalse_getFlag hm] at h
      split at h
      · cases h
      · exact h
  have hinv : ∀ m' : List (List Bool), (∃ v, (E.verdict st.cache p child S c).1 = .ok v) →
      (∀ q, (uncached E child c).flag q m' = .ok true → (uncached E child c).flag q st.removable = .ok true) →
      LInv E child c b u ⟨(E.verdict st.cache p child S c).2, m'⟩ ∧
        (E.verdict st.cache p child S c).2.Has (insert p S.toFinset) := by
    intro m' hok hm'
    obtain ⟨hb1, hb2⟩ := hV.both hok
    rw [hins] at hb1
    refine ⟨⟨hV.coherent, ?_, ?_, ?_⟩, hb1⟩
    · intro K hK
      rcases hV.only K hK with h | h | h
      · exact hI.size K h
      · rw [h, hins, Finset.card_insert_of_notMem hpS, hcard]
      · rw [h, hcard]; omega
    · intro q hq hf
      exact (hI.avail q hq (hm' q hf)).mono (fun _ h => h) hV.grows
    · intro K hK hcK
      rcases hV.only K hK with h | h | h
      · obtain ⟨q, h1, h2, h3⟩ := hI.origin K h hcK
        exact ⟨q, h1, hV.grows _ h2, h3.mono (fun _ h => h) hV.grows⟩
      · subst h
        rw [hins]
        refine ⟨p, Finset.mem_insert_self _ _, ?_, hA.mono (fun _ h => h) hV.grows⟩
        rw [Finset.erase_insert hpS]; exact hb2
      · rw [h, hcard] at hcK; omega
  dsimp only
  have e1 : (E.calls child c).test p S st = E.completeTest st p child S c i j := by simp only [calls, hi, hj]
  have e2 : (uncached E child c).test p S st.removable =
      ((E.completeTest ⟨[], st.removable⟩ p child S c i j).1, (E.completeTest ⟨[], st.removable⟩ p child S c i j).2.removable) := by
    simp only [uncached, calls, hi, hj]
  rw [e1, e2]
  unfold completeTest
  rw [← hans] at hnil
  revert hinv hans hV hnil
  generalize E.verdict st.cache p child S c = r
  generalize E.verdict [] p child S c = r'
  obtain ⟨r1, r2⟩ := r
  obtain ⟨r1', r2'⟩ := r'
  intro hV hans hnil hinv
  simp only at hnil
  subst hnil
  have hg : ∀ K, st.cache.Has K → r2.Has K := hV.grows
  cases r1' with
  | error e => exact ⟨rfl, rfl, hg, fun q h => h, fun ⟨v, hv⟩ => by simp at hv⟩
  | ok v =>
    cases v with
    | accept => exact ⟨rfl, rfl, hg, fun q h => h, fun _ => hinv _ ⟨_, rfl⟩ (fun q h => h)⟩
    | reject => exact ⟨rfl, rfl, hg, fun q h => h, fun _ => hinv _ ⟨_, rfl⟩ (fun q h => h)⟩
    | rejectMark =>
      simp only
      cases hs : setFalse st.removable i j with
      | error e => exact ⟨rfl, rfl, hg, fun q h => h, fun ⟨v, hv⟩ => by simp at hv⟩
      | ok m => exact ⟨rfl, rfl, hg, fun q h => hflag q _ _ hs h, fun _ => hinv m ⟨_, rfl⟩ (fun q h => hflag q _ _ hs h)⟩

theorem subsetLoop_sim {child : Label} {c b : Nat} {u : List Label} {p : Label}
    (hw : WFStructure E.struct) (hc : child ∈ E.struct.labels) (hu : ∀ x ∈ u, x ∈ E.struct.labels ∧ x ≠ child)
    (hnd : u.Nodup) (hp : p ∈ u) (Ss : List (List Label)) (hSs : ∀ S ∈ Ss, S ∈ combos b (u.erase p)) (st : CBState)
    (hI : LInv E child c b u st) (hA : Avail b u st.cache p) :
    let r := subsetLoop (E.calls child c) p Ss st
    let r' := subsetLoop (uncached E child c) p Ss st.removable
    r.1 = r'.1 ∧ r.2.removable = r'.2 ∧ (∀ K, st.cache.Has K → r.2.cache.Has K) ∧
      (∀ q, (uncached E child c).flag q r.2.removable = .ok true → (uncached E child c).flag q st.removable = .ok true) ∧
      ((∃ v, r.1 = .ok v) → LInv E child c b u r.2) ∧
      (r.1 = .ok false → ∀ S ∈ Ss, r.2.cache.Has (insert p S.toFinset)) := by
  induction Ss generalizing st with
  | nil => exact ⟨rfl, rfl, fun _ h => h, fun _ h => h, fun _ => hI, fun _ S hS => by simp at hS⟩
  | cons S Ss ih =>
    obtain ⟨h1, h2, h3, h4, h5⟩ := test_step hw hc hu hnd hp (hSs S (by simp)) hI hA
    dsimp only
    unfold subsetLoop
    revert h1 h2 h3 h4 h5
    generalize (E.calls child c).test p S st = r
    generalize (uncached E child c).test p S st.removable = r'
    obtain ⟨r1, st1⟩ := r
    obtain ⟨r1', m1⟩ := r'
    intro h1 h2 h3 h4 h5
    simp only at h1 h2 h3 h4 h5
    subst h1; subst h2
    cases r1 with
    | error e => exact ⟨rfl, rfl, h3, h4, fun ⟨v, hv⟩ => by simp at hv, fun hv => by simp at hv⟩
    | ok v =>
      obtain ⟨h6, h7⟩ := h5 ⟨v, rfl⟩
      cases v with
      | true => exact ⟨rfl, rfl, h3, h4, fun _ => h6, fun hv => by simp at hv⟩
      | false =>
        simp only
        obtain ⟨k1, k2, k3, k4, k5, k6⟩ := ih (fun S hS => hSs S (by simp [hS])) st1 h6 (hA.mono (fun _ h => h) h3)
        refine ⟨k1, k2, fun K hK => k3 K (h3 K hK), fun q hq => h4 q (k4 q hq), k5, ?_⟩
        intro hv T hT
        rcases List.mem_cons.1 hT with rfl | hT
        · exact k3 _ h7
        · exact k6 hv T hT

theorem visit_sim {child : Label} {c b : Nat} {u : List Label} {p : Label}
    (hw : WFStructure E.struct) (hc : child ∈ E.struct.labels) (hu : ∀ x ∈ u, x ∈ E.struct.labels ∧ x ≠ child)
    (hnd : u.Nodup) (hp : p ∈ u) (st : CBState) (hI : LInv E child c b u st) :
    let r := visit (E.calls child c) b u p st
    let r' := visit (uncached E child c) b u p st.removable
    r.1 = r'.1 ∧ r.2.removable = r'.2 ∧ (∀ K, st.cache.Has K → r.2.cache.Has K) ∧
      (∀ q, (uncached E child c).flag q r.2.removable = .ok true → (uncached E child c).flag q st.removable = .ok true) ∧
      ((∃ v, r.1 = .ok v) → LInv E child c b u r.2) ∧
      (r.1 = .ok false → (uncached E child c).flag p r.2.removable = .ok true → Avail (b + 1) u r.2.cache p) := by
  dsimp only
  unfold visit
  have hfl : (E.calls child c).flag p st = (uncached E child c).flag p st.removable := rfl
  rw [hfl]
  cases hf : (uncached E child c).flag p st.removable with
  | error e => exact ⟨rfl, rfl, fun _ h => h, fun _ h => h, fun ⟨v, hv⟩ => by simp at hv, fun hv => by simp at hv⟩
  | ok v =>
    cases v with
    | false =>
      exact ⟨rfl, rfl, fun _ h => h, fun _ h => h, fun _ => hI, fun _ h => by simp only [hf] at h; cases h⟩
    | true =>
      rw [subSetsOfSize_of_mem hp]
      simp only
      obtain ⟨k1, k2, k3, k4, k5, k6⟩ := subsetLoop_sim hw hc hu hnd hp (combos b (u.erase p)) (fun _ h => h) st hI
        (hI.avail p hp hf)
      refine ⟨k1, k2, k3, k4, k5, ?_⟩
      intro hv _ R hR hpR hb
      obtain ⟨S, hS, rfl⟩ := exists_combo (k := b) (l := u.erase p) (hnd.erase p) (R := R)
        (fun x hx => by
          rw [List.mem_toFinset, hnd.mem_erase_iff]
          exact ⟨fun h => hpR (h ▸ hx), List.mem_toFinset.1 (hR hx)⟩) (by omega)
      exact k6 hv S hS

theorem erase_getElem_take {u : List Label} (hnd : u.Nodup) {idx : Nat} (h : idx < u.length) :
    (u.erase u[idx]).take idx = u.take idx := by
  have : u.erase u[idx] = u.eraseIdx idx := by
    rw [← eraseIdx_idxOf, hnd.idxOf_getElem idx h]
  rw [this]
  apply List.ext_getElem?
  intro k
  by_cases hk : k < idx
  · rw [List.getElem?_take_of_lt hk, List.getElem?_take_of_lt hk, List.getElem?_eraseIdx_of_lt hk]
  · rw [List.getElem?_take_eq_none (by omega), List.getElem?_take_eq_none (by omega)]

theorem innerLoop_sim {child : Label} {c b : Nat} (hw : WFStructure E.struct) (hc : child ∈ E.struct.labels)
    (u : List Label) (g : NetworkGraph) (idx : Nat) (st : CBState) (hu : ∀ x ∈ u, x ∈ E.struct.labels ∧ x ≠ child)
    (hnd : u.Nodup) (hI : LInv E child c b u st)
    (hA : ∀ q ∈ u.take idx, (uncached E child c).flag q st.removable = .ok true → Avail (b + 1) u st.cache q) :
    let r := innerLoop (E.calls child c) child b u g idx st
    let r' := innerLoop (uncached E child c) child b u g idx st.removable
    r.1 = r'.1 ∧ r.2.removable = r'.2 ∧
      (∀ u' g', r.1 = .ok (u', g') → u'.Sublist u ∧ LInv E child c (b + 1) u' r.2) := by
  fun_induction innerLoop (E.calls child c) child b u g idx st with
  | case1 u g idx st hlt e st1 hv =>
    obtain ⟨k1, k2, k3, k4, k5, k6⟩ := visit_sim (c := c) hw hc hu hnd (List.getElem_mem hlt) st hI
    rw [hv] at k1 k2
    rw [innerLoop, dif_pos hlt]
    revert k1 k2
    generalize visit (uncached E child c) b u u[idx] st.removable = r'
    obtain ⟨r1', m1⟩ := r'
    intro k1 k2
    simp only at k1 k2
    subst k1; subst k2
    exact ⟨rfl, rfl, fun u' g' h => by simp at h⟩
  | case2 u g idx st hlt st1 hv ih =>
    obtain ⟨k1, k2, k3, k4, k5, k6⟩ := visit_sim (c := c) hw hc hu hnd (List.getElem_mem hlt) st hI
    rw [hv] at k1 k2 k3 k4 k5
    have hsub : (u.erase u[idx]).Sublist u := List.erase_sublist
    have := ih (fun x hx => hu x (hsub.subset hx)) (hnd.erase _)
      ((k5 ⟨_, rfl⟩).shrink (fun x hx => hsub.subset hx)) (by
        intro q hq hf
        rw [erase_getElem_take hnd hlt] at hq
        exact (hA q hq (k4 q hf)).mono (fun x hx => hsub.subset hx) k3)
    obtain ⟨h1, h2, h3⟩ := this
    dsimp only
    rw [innerLoop.eq_def (uncached E child c) child b u, dif_pos hlt]
    revert k1 k2
    generalize visit (uncached E child c) b u u[idx] st.removable = r'
    obtain ⟨r1', m1⟩ := r'
    intro k1 k2
    simp only at k1 k2
    subst k1; subst k2
    exact ⟨h1, h2, fun u' g' h => ⟨(h3 u' g' h).1.trans hsub, (h3 u' g' h).2⟩⟩
  | case3 u g idx st hlt st1 hv ih =>
    obtain ⟨k1, k2, k3, k4, k5, k6⟩ := visit_sim (c := c) hw hc hu hnd (List.getElem_mem hlt) st hI
    rw [hv] at k1 k2 k3 k4 k5 k6
    have := ih hu hnd (k5 ⟨_, rfl⟩) (by
        intro q hq hf
        rw [List.take_succ_eq_append_getElem hlt, List.mem_append, List.mem_singleton] at hq
        rcases hq with hq | rfl
        · exact (hA q hq (k4 q hf)).mono (fun x hx => hx) k3
        · exact k6 rfl hf)
    obtain ⟨h1, h2, h3⟩ := this
    dsimp only
    rw [innerLoop.eq_def (uncached E child c) child b u, dif_pos hlt]
    revert k1 k2
    generalize visit (uncached E child c) b u u[idx] st.removable = r'
    obtain ⟨r1', m1⟩ := r'
    intro k1 k2
    simp only at k1 k2
    subst k1; subst k2
    exact ⟨h1, h2, h3⟩
  | case4 u g idx st hlt =>
    rw [innerLoop, dif_neg hlt]
    refine ⟨rfl, rfl, ?_⟩
    intro u' g' h
    simp only [Except.ok.injEq, Prod.mk.injEq] at h
    obtain ⟨rfl, rfl⟩ := h
    refine ⟨List.Sublist.refl _, hI.coherent, fun K hK => ?_, ?_, ?_⟩
    · have := hI.size K hK; omega
    · intro q hq hf
      exact hA q (by rw [List.take_of_length_le (by omega)]; exact hq) hf
    · intro K hK hcK
      have := hI.size K hK
      omega

theorem outerLoop_sim {child : Label} {c b : Nat} (hw : WFStructure E.struct) (hc : child ∈ E.struct.labels)
    (u : List Label) (g : NetworkGraph) (st : CBState) (hu : ∀ x ∈ u, x ∈ E.struct.labels ∧ x ≠ child)
    (hnd : u.Nodup) (hI : LInv E child c b u st) :
    let r := outerLoop (E.calls child c) child b u g st
    let r' := outerLoop (uncached E child c) child b u g st.removable
    r.1 = r'.1 ∧ r.2.removable = r'.2 := by
  fun_induction outerLoop (E.calls child c) child b u g st with
  | case1 b u g st hlt e st1 hv =>
    obtain ⟨k1, k2, k3⟩ := innerLoop_sim (c := c) hw hc u g 0 st hu hnd hI (by simp)
    rw [hv] at k1 k2
    dsimp only
    rw [outerLoop.eq_def, if_pos hlt]
    split
    · rename_i e' m' heq
      rw [heq] at k1 k2; exact ⟨k1, k2⟩
    · rename_i u' g' m' heq
      rw [heq] at k1; cases k1
  | case2 b u g st hlt u1 g1 st1 hv ih =>
    obtain ⟨k1, k2, k3⟩ := innerLoop_sim (c := c) hw hc u g 0 st hu hnd hI (by simp)
    rw [hv] at k1 k2 k3
    obtain ⟨hs, hI'⟩ := k3 u1 g1 rfl
    have := ih (fun x hx => hu x (hs.subset hx)) (hnd.sublist hs) hI'
    dsimp only
    rw [outerLoop.eq_def (uncached E child c) child b u, if_pos hlt]
    split
    · rename_i e' m' heq
      rw [heq] at k1; cases k1
    · rename_i u' g' m' heq
      rw [heq] at k1 k2
      simp only [Except.ok.injEq, Prod.mk.injEq] at k1 k2
      obtain ⟨rfl, rfl⟩ := k1
      subst k2
      exact this
  | case3 b u g st hlt =>
    dsimp only
    rw [outerLoop.eq_def, if_neg hlt]
    exact ⟨rfl, rfl⟩

theorem LInv.init {child : Label} {c : Nat} {u : List Label} (m : List (List Bool)) : LInv E child c 0 u ⟨[], m⟩ := by
  refine ⟨Coherent.nil, fun K hK => absurd hK not_has_nil, ?_, fun K hK => absurd hK not_has_nil⟩
  intro q _ _ R _ _ h
  omega

theorem others_mem {child x : Label} : x ∈ E.others child ↔ x ∈ E.struct.labels ∧ x ≠ child := by
  simp [others]

theorem others_nodup (hw : WFStructure E.struct) (child : Label) : (E.others child).Nodup := hw.nodup.filter _

/-- Processing a child from an empty cache is processing it with an always empty cache. -/
theorem optimize_sim (hw : WFStructure E.struct) {child : Label} (hc : child ∈ E.struct.labels) (m : List (List Bool)) :
    (E.optimize ⟨[], m⟩ child).1 = (uncachedOptimize E m child).1 ∧
      (E.optimize ⟨[], m⟩ child).2.removable = (uncachedOptimize E m child).2 ∧
      (∀ es, (E.optimize ⟨[], m⟩ child).1 = .ok es → (E.optimize ⟨[], m⟩ child).2.cache = []) := by
  obtain ⟨c, _, hcs⟩ := getStatesNumber_mem hw hc
  unfold optimize uncachedOptimize
  rw [hcs]
  simp only
  obtain ⟨h1, h2⟩ := outerLoop_sim (c := c) (b := 0) hw hc (E.others child) (E.startGraph child) ⟨[], m⟩
    (fun x hx => others_mem.1 hx) (others_nodup hw child) (LInv.init m)
  revert h1 h2
  generalize outerLoop (E.calls child c) child 0 (E.others child) (E.startGraph child) ⟨[], m⟩ = r
  generalize outerLoop (uncached E child c) child 0 (E.others child) (E.startGraph child) (CBState.removable ⟨[], m⟩) = r'
  obtain ⟨r1, st1⟩ := r
  obtain ⟨r1', m1⟩ := r'
  intro h1 h2
  simp only at h1 h2
  subst h1; subst h2
  cases r1 with
  | error e => exact ⟨rfl, rfl, fun es h => by simp at h⟩
  | ok v => obtain ⟨u', g'⟩ := v; exact ⟨rfl, rfl, fun es h => rfl⟩

end CBEnv
end PyCTBN
