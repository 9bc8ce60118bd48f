import Verif.Lemmas.CtpcRun

/-! Simulations between searches: sequential versus parallel, first run versus second run. -/

namespace PyCTBN
open Spec

section
variable {σ τ : Type} {T : CBTest σ} {T' : CBTest τ} {R : σ → τ → Prop}

theorem subsetLoop_rel
    (ht : ∀ p S s t, R s t → (T.test p S s).1 = (T'.test p S t).1 ∧ R (T.test p S s).2 (T'.test p S t).2)
    (p : Label) (Ss : List (List Label)) (s : σ) (t : τ) (h : R s t) :
    (subsetLoop T p Ss s).1 = (subsetLoop T' p Ss t).1 ∧ R (subsetLoop T p Ss s).2 (subsetLoop T' p Ss t).2 := by
  induction Ss generalizing s t with
  | nil => exact ⟨rfl, h⟩
  | cons S Ss ih =>
    unfold subsetLoop
    have h1 := ht p S s t h
    revert h1
    generalize T.test p S s = r
    generalize T'.test p S t = r'
    obtain ⟨r1, s1⟩ := r
    obtain ⟨r1', t1⟩ := r'
    rintro ⟨h1, h2⟩
    simp only at h1 h2
    subst h1
    cases r1 with
    | error e => exact ⟨rfl, h2⟩
    | ok v => cases v with
      | true => exact ⟨rfl, h2⟩
      | false => exact ih s1 t1 h2

theorem visit_rel (hf : ∀ p s t, R s t → T.flag p s = T'.flag p t)
    (ht : ∀ p S s t, R s t → (T.test p S s).1 = (T'.test p S t).1 ∧ R (T.test p S s).2 (T'.test p S t).2)
    (b : Nat) (u : List Label) (p : Label) (s : σ) (t : τ) (h : R s t) :
    (visit T b u p s).1 = (visit T' b u p t).1 ∧ R (visit T b u p s).2 (visit T' b u p t).2 := by
  unfold visit
  rw [hf p s t h]
  cases T'.flag p t with
  | error e => exact ⟨rfl, h⟩
  | ok v => cases v with
    | false => exact ⟨rfl, h⟩
    | true =>
      simp only
      cases subSetsOfSize u b p with
      | error e => exact ⟨rfl, h⟩
      | ok Ss => exact subsetLoop_rel ht p Ss s t h

theorem innerLoop_rel (hf : ∀ p s t, R s t → T.flag p s = T'.flag p t)
    (ht : ∀ p S s t, R s t → (T.test p S s).1 = (T'.test p S t).1 ∧ R (T.test p S s).2 (T'.test p S t).2)
    (child : Label) (b : Nat) (u : List Label) (g : NetworkGraph) (idx : Nat) (s : σ) (t : τ) (h : R s t) :
    (innerLoop T child b u g idx s).1 = (innerLoop T' child b u g idx t).1 ∧
      R (innerLoop T child b u g idx s).2 (innerLoop T' child b u g idx t).2 := by
  fun_induction innerLoop T child b u g idx s generalizing t with
  | case1 u g idx s hlt e s1 hv =>
    have := visit_rel hf ht b u u[idx] s t h
    rw [hv] at this
    rw [innerLoop.eq_def T' child b u, dif_pos hlt]
    revert this
    generalize visit T' b u u[idx] t = r'
    obtain ⟨r1', t1⟩ := r'
    rintro ⟨h1, h2⟩
    simp only at h1 h2
    subst h1
    exact ⟨rfl, h2⟩
  | case2 u g idx s hlt s1 hv ih =>
    have := visit_rel hf ht b u u[idx] s t h
    rw [hv] at this
    rw [innerLoop.eq_def T' child b u, dif_pos hlt]
    revert this
    generalize visit T' b u u[idx] t = r'
    obtain ⟨r1', t1⟩ := r'
    rintro ⟨h1, h2⟩
    simp only at h1 h2
    subst h1
    exact ih t1 h2
  | case3 u g idx s hlt s1 hv ih =>
    have := visit_rel hf ht b u u[idx] s t h
    rw [hv] at this
    rw [innerLoop.eq_def T' child b u, dif_pos hlt]
    revert this
    generalize visit T' b u u[idx] t = r'
    obtain ⟨r1', t1⟩ := r'
    rintro ⟨h1, h2⟩
    simp only at h1 h2
    subst h1
    exact ih t1 h2
  | case4 u g idx s hlt =>
    rw [innerLoop.eq_def T' child b u, dif_neg hlt]
    exact ⟨rfl, h⟩

theorem outerLoop_rel (hf : ∀ p s t, R s t → T.flag p s = T'.flag p t)
    (ht : ∀ p S s t, R s t → (T.test p S s).1 = (T'.test p S t).1 ∧ R (T.test p S s).2 (T'.test p S t).2)
    (child : Label) (b : Nat) (u : List Label) (g : NetworkGraph) (s : σ) (t : τ) (h : R s t) :
    (outerLoop T child b u g s).1 = (outerLoop T' child b u g t).1 ∧
      R (outerLoop T child b u g s).2 (outerLoop T' child b u g t).2 := by
  fun_induction outerLoop T child b u g s generalizing t with
  | case1 b u g s hlt e s1 hv =>
    have := innerLoop_rel hf ht child b u g 0 s t h
    rw [hv] at this
    rw [outerLoop.eq_def T' child b u, if_pos hlt]
    split
    · rename_i heq; rw [heq] at this; exact this
    · rename_i heq; rw [heq] at this; exact absurd this.1 (by simp)
  | case2 b u g s hlt u1 g1 s1 hv ih =>
    have := innerLoop_rel hf ht child b u g 0 s t h
    rw [hv] at this
    rw [outerLoop.eq_def T' child b u, if_pos hlt]
    split
    · rename_i heq; rw [heq] at this; exact absurd this.1 (by simp)
    · rename_i heq
      rw [heq] at this
      obtain ⟨h1, h2⟩ := this
      simp only [Except.ok.injEq, Prod.mk.injEq] at h1 h2
      obtain ⟨rfl, rfl⟩ := h1
      exact ih _ h2
  | case3 b u g s hlt =>
    rw [outerLoop.eq_def T' child b u, if_neg hlt]
    exact ⟨rfl, h⟩

end

section
variable {σ : Type} {T : CBTest σ} {Le : σ → σ → Prop} (hr : ∀ s, Le s s) (htr : ∀ a b c, Le a b → Le b c → Le a c)
  (ht : ∀ p S s, Le s (T.test p S s).2)
include hr htr ht

theorem subsetLoop_le (p : Label) (Ss : List (List Label)) (s : σ) : Le s (subsetLoop T p Ss s).2 := by
  induction Ss generalizing s with
  | nil => exact hr s
  | cons S Ss ih =>
    unfold subsetLoop
    have h1 := ht p S s
    revert h1
    generalize T.test p S s = r
    obtain ⟨r1, s1⟩ := r
    intro h1
    cases r1 with
    | error e => exact h1
    | ok v => cases v with
      | true => exact h1
      | false => exact htr _ _ _ h1 (ih s1)

theorem visit_le (b : Nat) (u : List Label) (p : Label) (s : σ) : Le s (visit T b u p s).2 := by
  unfold visit
  cases T.flag p s with
  | error e => exact hr s
  | ok v => cases v with
    | false => exact hr s
    | true =>
      simp only
      cases subSetsOfSize u b p with
      | error e => exact hr s
      | ok Ss => exact subsetLoop_le hr htr ht p Ss s

theorem innerLoop_le (child : Label) (b : Nat) (u : List Label) (g : NetworkGraph) (idx : Nat) (s : σ) :
    Le s (innerLoop T child b u g idx s).2 := by
  fun_induction innerLoop T child b u g idx s with
  | case1 u g idx s hlt e s1 hv => have := visit_le hr htr ht b u u[idx] s; rw [hv] at this; exact this
  | case2 u g idx s hlt s1 hv ih =>
    have := visit_le hr htr ht b u u[idx] s; rw [hv] at this; exact htr _ _ _ this ih
  | case3 u g idx s hlt s1 hv ih =>
    have := visit_le hr htr ht b u u[idx] s; rw [hv] at this; exact htr _ _ _ this ih
  | case4 u g idx s hlt => exact hr s

theorem outerLoop_le (child : Label) (b : Nat) (u : List Label) (g : NetworkGraph) (s : σ) :
    Le s (outerLoop T child b u g s).2 := by
  fun_induction outerLoop T child b u g s with
  | case1 b u g s hlt e s1 hv => have := innerLoop_le hr htr ht child b u g 0 s; rw [hv] at this; exact this
  | case2 b u g s hlt u1 g1 s1 hv ih =>
    have := innerLoop_le hr htr ht child b u g 0 s; rw [hv] at this; exact htr _ _ _ this ih
  | case3 b u g s hlt => exact hr s

end

theorem setFalse_ok_iff {m : List (List Bool)} {i j : Nat} :
    (∃ m', setFalse m i j = .ok m') ↔ ∃ v, getFlag m i j = .ok v := by
  unfold setFalse getFlag pyGet
  cases h : m[i]? with
  | none => simp
  | some row =>
    simp only [Except.bind_ok']
    by_cases hj : j < row.length
    · simp [hj]
    · simp [hj]

theorem setFalse_error {m : List (List Bool)} {i j : Nat} {e : PyErr} (h : setFalse m i j = .error e) : e = .indexError := by
  unfold setFalse at h
  cases hm : m[i]? with
  | none => rw [hm] at h; simpa using h.symm
  | some row =>
    rw [hm] at h
    simp only at h
    split at h
    · cases h
    · simpa using h.symm

namespace CBEnv
variable {E : CBEnv}

/-- Same column. -/
def ColEq (j : Nat) (m m' : List (List Bool)) : Prop := ∀ a, getFlag m a j = getFlag m' a j

theorem uncachedOptimize_col {child : Label} {j : Nat} (hj : E.struct.getNodeIndx child = .ok j) {m m' : List (List Bool)}
    (h : ColEq j m m') :
    (uncachedOptimize E m child).1 = (uncachedOptimize E m' child).1 ∧
      ColEq j (uncachedOptimize E m child).2 (uncachedOptimize E m' child).2 := by
  unfold uncachedOptimize
  cases hcs : E.struct.getStatesNumber child with
  | error e => exact ⟨rfl, h⟩
  | ok c =>
    simp only
    have := outerLoop_rel (T := uncached E child c) (T' := uncached E child c) (R := ColEq j) ?_ ?_ child 0
      (E.others child) (E.startGraph child) m m' h
    · revert this
      generalize outerLoop (uncached E child c) child 0 (E.others child) (E.startGraph child) m = r
      generalize outerLoop (uncached E child c) child 0 (E.others child) (E.startGraph child) m' = r'
      obtain ⟨r1, s1⟩ := r
      obtain ⟨r1', t1⟩ := r'
      rintro ⟨h1, h2⟩
      simp only at h1 h2
      subst h1
      cases r1 with
      | error e => exact ⟨rfl, h2⟩
      | ok v => obtain ⟨u', g'⟩ := v; exact ⟨rfl, h2⟩
    · intro p s t hst
      simp only [uncached, calls, hj]
      cases E.struct.getNodeIndx p with
      | error e => rfl
      | ok i => exact hst i
    · intro p S s t hst
      cases hi : E.struct.getNodeIndx p with
      | error e => simp only [uncached, calls, hi, hj]; exact ⟨trivial, hst⟩
      | ok i =>
        rw [test_uncached hi hj, test_uncached hi hj]
        cases freshVerdict E child c p S with
        | error e => exact ⟨rfl, hst⟩
        | ok v =>
          cases v with
          | accept => exact ⟨rfl, hst⟩
          | reject => exact ⟨rfl, hst⟩
          | rejectMark =>
            simp only
            cases h1 : setFalse s i j with
            | error e =>
              cases h2 : setFalse t i j with
              | error e' => rw [setFalse_error h1, setFalse_error h2]; exact ⟨rfl, hst⟩
              | ok t' =>
                exfalso
                obtain ⟨v, hv⟩ := setFalse_ok_iff.1 ⟨t', h2⟩
                rw [← hst i] at hv
                obtain ⟨s', hs'⟩ := setFalse_ok_iff.2 ⟨v, hv⟩
                rw [h1] at hs'; cases hs'
            | ok s' =>
              cases h2 : setFalse t i j with
              | error e =>
                exfalso
                obtain ⟨v, hv⟩ := setFalse_ok_iff.1 ⟨s', h1⟩
                rw [hst i] at hv
                obtain ⟨t', ht'⟩ := setFalse_ok_iff.2 ⟨v, hv⟩
                rw [h2] at ht'; cases ht'
              | ok t' =>
                refine ⟨rfl, ?_⟩
                intro a
                show getFlag s' a j = getFlag t' a j
                rw [setFalse_getFlag h1, setFalse_getFlag h2, hst a]

/-- Only the child's own column changes. -/
theorem uncachedOptimize_frame (hw : WFStructure E.struct) {child : Label} (hc : child ∈ E.struct.labels) {j : Nat}
    (hj : E.struct.getNodeIndx child = .ok j) (m : List (List Bool)) {b : Nat} (hb : b ≠ j) :
    ColEq b (uncachedOptimize E m child).2 m := by
  obtain ⟨c, _, hcs⟩ := getStatesNumber_mem hw hc
  have hI := outerLoop_uncached (c := c) (b := 0) (m₀ := m) hw hc (fun x hx => (others_mem.1 hx).1) (others_nodup hw child) (E.others child)
    (E.startGraph child) m ⟨List.Sublist.refl _, fun p h1 h2 => absurd h1 h2, fun p _ _ S _ hl => by omega, Marks.refl m⟩
  have hm := hI.1
  unfold uncachedOptimize
  rw [hcs]
  simp only
  revert hm
  generalize outerLoop (uncached E child c) child 0 (E.others child) (E.startGraph child) m = r
  obtain ⟨r1, s1⟩ := r
  intro hm a
  have : getFlag s1 a b = getFlag m a b := by
    rcases hm a b with h | ⟨_, h, _⟩
    · exact h
    · rw [hj] at h; injection h with h; exact absurd h.symm hb
  cases r1 with
  | error e => exact this
  | ok v => obtain ⟨u', g'⟩ := v; exact this

theorem indx_inj (hw : WFStructure E.struct) (hnd : E.struct.indexes.Nodup) {a b : Label} (ha : a ∈ E.struct.labels)
    (hb : b ∈ E.struct.labels) {j : Nat} (h1 : E.struct.getNodeIndx a = .ok j) (h2 : E.struct.getNodeIndx b = .ok j) :
    a = b := by
  have key : ∀ x ∈ E.struct.labels, E.struct.getNodeIndx x = .ok j → E.struct.indexes[E.struct.labels.idxOf x]? = some j := by
    intro x hx h
    unfold Structure.getNodeIndx at h
    rw [pyIndex_of_mem hx] at h
    exact pyGet_ok.1 h
  have e1 := key a ha h1
  have e2 := key b hb h2
  have l1 := List.idxOf_lt_length_of_mem ha
  have l2 := List.idxOf_lt_length_of_mem hb
  have hil := hw.idxLen
  rw [List.getElem?_eq_getElem (by omega)] at e1 e2
  have : E.struct.labels.idxOf a = E.struct.labels.idxOf b := by
    apply (hnd.getElem_inj_iff (hi := by omega) (hj := by omega)).1
    rw [Option.some.injEq] at e1 e2; rw [e1, e2]
  have g1 := List.getElem_idxOf l1
  have g2 := List.getElem_idxOf l2
  rw [← g1, ← g2]
  simp only [this]

/-- The sequential loop, as independent runs. -/
theorem seqLoop_eq (hw : WFStructure E.struct) (hnd : E.struct.indexes.Nodup) (m₀ : List (List Bool)) (ns : List Label)
    (hns : ns.Nodup) (hmem : ∀ n ∈ ns, n ∈ E.struct.labels) (m : List (List Bool))
    (hcol : ∀ n ∈ ns, ∀ j, E.struct.getNodeIndx n = .ok j → ColEq j m m₀) :
    (E.ctpcSeqLoop ns ⟨[], m⟩).1 = ns.mapM (fun n => (E.optimize ⟨[], m₀⟩ n).1) ∧
      ((∃ ess, (E.ctpcSeqLoop ns ⟨[], m⟩).1 = .ok ess) → (E.ctpcSeqLoop ns ⟨[], m⟩).2.cache = [] ∧
        ∀ b, (∀ n ∈ ns, ∀ j, E.struct.getNodeIndx n = .ok j →
            ColEq j (E.ctpcSeqLoop ns ⟨[], m⟩).2.removable (uncachedOptimize E m₀ n).2) ∧
          ((∀ n ∈ ns, E.struct.getNodeIndx n ≠ .ok b) → ColEq b (E.ctpcSeqLoop ns ⟨[], m⟩).2.removable m)) := by
  induction ns generalizing m with
  | nil => exact ⟨rfl, fun _ => ⟨rfl, fun b => ⟨fun n hn => by simp at hn, fun _ _ => rfl⟩⟩⟩
  | cons n ns ih =>
    rw [List.nodup_cons] at hns
    have hn := hmem n (by simp)
    obtain ⟨j, _, hj⟩ := getNodeIndx_mem hw hn
    obtain ⟨s1, s2, s3⟩ := optimize_sim hw hn m
    obtain ⟨t1, t2, t3⟩ := optimize_sim hw hn m₀
    obtain ⟨c1, c2⟩ := uncachedOptimize_col hj (hcol n (by simp) j hj)
    have hframe := fun b hb => uncachedOptimize_frame hw hn hj m (b := b) hb
    have hres : (E.optimize ⟨[], m⟩ n).1 = (E.optimize ⟨[], m₀⟩ n).1 := by rw [s1, t1, c1]
    rw [List.mapM_cons, ← hres]
    unfold ctpcSeqLoop
    revert s2 s3
    generalize E.optimize ⟨[], m⟩ n = r
    obtain ⟨r1, st1⟩ := r
    intro s2 s3
    simp only at s2 s3
    cases r1 with
    | error e => exact ⟨rfl, fun ⟨ess, h⟩ => by simp at h⟩
    | ok es =>
      obtain ⟨cache1, m1⟩ := st1
      simp only at s2
      have hc1 : cache1 = [] := s3 es rfl
      subst hc1
      have hne : ∀ n' ∈ ns, ∀ j', E.struct.getNodeIndx n' = .ok j' → j' ≠ j := by
        intro n' hn' j' hj' hjj
        subst hjj
        have := indx_inj hw hnd (hmem n' (by simp [hn'])) hn hj' hj
        subst this
        exact hns.1 hn'
      have ih1 := ih hns.2 (fun x hx => hmem x (by simp [hx])) m1 (by
        intro n' hn' j' hj' a
        rw [s2, hframe j' (hne n' hn' j' hj') a]
        exact hcol n' (by simp [hn']) j' hj' a)
      obtain ⟨i1, i2⟩ := ih1
      simp only [Except.bind_ok']
      rw [← i1]
      revert i2
      generalize E.ctpcSeqLoop ns ⟨[], m1⟩ = r
      obtain ⟨r1, st2⟩ := r
      intro i2
      simp only at i2
      cases r1 with
      | error e => exact ⟨rfl, fun ⟨ess, h⟩ => by simp at h⟩
      | ok ess =>
        obtain ⟨i3, i4⟩ := i2 ⟨ess, rfl⟩
        refine ⟨rfl, fun _ => ⟨i3, fun b => ⟨?_, ?_⟩⟩⟩
        · intro n' hn' j' hj'
          rcases List.mem_cons.1 hn' with rfl | hn'
          · have hjj : j' = j := by rw [hj'] at hj; injection hj
            subst hjj
            intro a
            rw [(i4 j').2 (fun x hx h => hne x hx j' h rfl) a, s2]
            exact c2 a
          · exact (i4 b).1 n' hn' j' hj'
        · intro hb a
          rw [(i4 b).2 (fun x hx => hb x (by simp [hx])) a, s2]
          exact hframe b (fun h => hb n (by simp) (h ▸ hj)) a

/-! ## Second run -/

theorem subsetLoop_again {child p : Label} {c : Nat} {mF : List (List Bool)} (hw : WFStructure E.struct)
    (hc : child ∈ E.struct.labels) (hp : p ∈ E.struct.labels) (hF : (uncached E child c).flag p mF = .ok true)
    (Ss : List (List Label)) (m : List (List Bool)) {v : Bool} {m1 : List (List Bool)}
    (hr : subsetLoop (uncached E child c) p Ss m = (.ok v, m1))
    (hle : ∀ q, (uncached E child c).flag q mF = .ok true → (uncached E child c).flag q m1 = .ok true) :
    subsetLoop (uncached E child c) p Ss mF = (.ok v, mF) := by
  obtain ⟨i, _, hi⟩ := getNodeIndx_mem hw hp
  obtain ⟨j, _, hj⟩ := getNodeIndx_mem hw hc
  induction Ss generalizing m with
  | nil => simp only [subsetLoop, Prod.mk.injEq] at hr ⊢; exact ⟨hr.1, trivial⟩
  | cons S Ss ih =>
    unfold subsetLoop at hr ⊢
    rw [test_uncached hi hj] at hr ⊢
    cases hv : freshVerdict E child c p S with
    | error e => rw [hv] at hr; simp at hr
    | ok w =>
      rw [hv] at hr
      cases w with
      | accept => simp only [Prod.mk.injEq] at hr ⊢; exact ⟨hr.1, trivial⟩
      | reject => exact ih m hr
      | rejectMark =>
        exfalso
        simp only at hr
        cases hs : setFalse m i j with
        | error e => rw [hs] at hr; simp at hr
        | ok m' =>
          rw [hs] at hr
          simp only at hr
          -- flags can only go down from m' to m1
          have hm := subsetLoop_uncached (u₀ := p :: Ss.flatten) (c := c) hw hc hp (by simp) Ss
          have key : ∀ (Ss : List (List Label)) (a b : List (List Bool)) (w : Py Bool),
              subsetLoop (uncached E child c) p Ss a = (w, b) →
              getFlag a i j = .ok false → getFlag b i j = .ok false := by
            intro Ss
            induction Ss with
            | nil => intro a b w h ha; simp only [subsetLoop, Prod.mk.injEq] at h; rw [← h.2]; exact ha
            | cons T Ts ih =>
              intro a b w h ha
              unfold subsetLoop at h
              rw [test_uncached hi hj] at h
              cases hv : freshVerdict E child c p T with
              | error e => rw [hv] at h; simp only [Prod.mk.injEq] at h; rw [← h.2]; exact ha
              | ok w' =>
                rw [hv] at h
                cases w' with
                | accept => simp only [Prod.mk.injEq] at h; rw [← h.2]; exact ha
                | reject => exact ih a b w h ha
                | rejectMark =>
                  simp only at h
                  cases hs : setFalse a i j with
                  | error e => rw [hs] at h; simp only [Prod.mk.injEq] at h; rw [← h.2]; exact ha
                  | ok a' =>
                    rw [hs] at h
                    refine ih a' b w h ?_
                    rw [setFalse_getFlag hs]; simp
          have h1 := key Ss m' m1 _ hr (by rw [setFalse_getFlag hs]; simp)
          have h2 := hle p hF
          simp only [uncached, calls, hi, hj, Except.bind_ok'] at h2
          rw [h1] at h2; cases h2

/-- Flags can only go from true to false. -/
def FlagLe (E : CBEnv) (child : Label) (c : Nat) (m m' : List (List Bool)) : Prop :=
  ∀ q, (uncached E child c).flag q m' = .ok true → (uncached E child c).flag q m = .ok true

theorem test_flagLe (child : Label) (c : Nat) (p : Label) (S : List Label) (m : List (List Bool)) :
    FlagLe E child c m ((uncached E child c).test p S m).2 := by
  cases hi : E.struct.getNodeIndx p with
  | error e => simp only [uncached, calls, hi]; exact fun q h => h
  | ok i =>
    cases hj : E.struct.getNodeIndx child with
    | error e => simp only [uncached, calls, hi, hj]; exact fun q h => h
    | ok j =>
      rw [test_uncached hi hj]
      cases freshVerdict E child c p S with
      | error e => exact fun q h => h
      | ok v =>
        cases v with
        | accept => exact fun q h => h
        | reject => exact fun q h => h
        | rejectMark =>
          simp only
          cases hs : setFalse m i j with
          | error e => exact fun q h => h
          | ok m' =>
            intro q h
            simp only [uncached, calls] at h ⊢
            rw [hj] at h ⊢
            cases h1 : E.struct.getNodeIndx q with
            | error e => rw [h1] at h; simp at h
            | ok a =>
              rw [h1] at h
              simp only [Except.bind_ok', setFalse_getFlag hs] at h ⊢
              split at h
              · cases h
              · exact h

theorem FlagLe.refl' {child : Label} {c : Nat} (m : List (List Bool)) : FlagLe E child c m m := fun _ h => h
theorem FlagLe.trans' {child : Label} {c : Nat} (m m' m'' : List (List Bool)) (h : FlagLe E child c m m')
    (h' : FlagLe E child c m' m'') : FlagLe E child c m m'' := fun q hq => h q (h' q hq)

theorem innerLoop_mono {child : Label} {c b : Nat} {u : List Label} {g : NetworkGraph} {idx : Nat} {m : List (List Bool)}
    {r : Py (List Label × NetworkGraph)} {m1 : List (List Bool)}
    (h : innerLoop (uncached E child c) child b u g idx m = (r, m1)) : FlagLe E child c m m1 := by
  have := innerLoop_le (Le := FlagLe E child c) FlagLe.refl' FlagLe.trans' (test_flagLe child c) child b u g idx m
  rw [h] at this; exact this

theorem outerLoop_mono {child : Label} {c b : Nat} {u : List Label} {g : NetworkGraph} {m : List (List Bool)}
    {r : Py (List Label × NetworkGraph)} {m1 : List (List Bool)}
    (h : outerLoop (uncached E child c) child b u g m = (r, m1)) : FlagLe E child c m m1 := by
  have := outerLoop_le (Le := FlagLe E child c) FlagLe.refl' FlagLe.trans' (test_flagLe child c) child b u g m
  rw [h] at this; exact this

theorem innerLoop_again {child : Label} {c b : Nat} {mF : List (List Bool)} (hw : WFStructure E.struct)
    (hc : child ∈ E.struct.labels) (u : List Label) (g : NetworkGraph) (idx : Nat) (m : List (List Bool))
    (hu : ∀ x ∈ u, x ∈ E.struct.labels) (hnd : u.Nodup) (hfl : ∀ q ∈ u, ∃ v, (uncached E child c).flag q mF = .ok v)
    {u' : List Label} {g' : NetworkGraph} {m1 : List (List Bool)}
    (hr : innerLoop (uncached E child c) child b u g idx m = (.ok (u', g'), m1))
    (hle : ∀ q, (uncached E child c).flag q mF = .ok true → (uncached E child c).flag q m1 = .ok true)
    (hrem : ∀ q ∈ u, q ∉ u' → (uncached E child c).flag q mF = .ok true) :
    innerLoop (uncached E child c) child b u g idx mF = (.ok (u', g'), mF) := by
  have keep : ∀ (u : List Label) (g : NetworkGraph) (idx : Nat) (m : List (List Bool)), ∀ {u' g' m1},
      innerLoop (uncached E child c) child b u g idx m = (.ok (u', g'), m1) → ∀ q ∈ u', q ∈ u := by
    intro u g idx m
    fun_induction innerLoop (uncached E child c) child b u g idx m with
    | case1 => intro u' g' m1 hr; simp at hr
    | case2 u g idx m hlt s1 hv ih => intro u' g' m1 hr q hq; exact List.erase_subset (ih hr q hq)
    | case3 u g idx m hlt s1 hv ih => intro u' g' m1 hr q hq; exact ih hr q hq
    | case4 =>
      intro u' g' m1 hr q hq
      simp only [Prod.mk.injEq, Except.ok.injEq] at hr
      rw [hr.1.1]; exact hq
  fun_induction innerLoop (uncached E child c) child b u g idx m with
  | case1 => simp at hr
  | case2 u g idx m hlt s1 hv ih =>
    have hp := List.getElem_mem hlt
    have hnd' := hnd.erase u[idx]
    have hu' : ∀ x ∈ u.erase u[idx], x ∈ E.struct.labels := fun x hx => hu x (List.erase_subset hx)
    have hpF : (uncached E child c).flag u[idx] mF = .ok true := by
      apply hrem _ hp
      intro h
      have := keep _ _ _ _ hr _ h
      exact (hnd.mem_erase_iff.1 this).1 rfl
    have h1 := ih hu' hnd' (fun q hq => hfl q (List.erase_subset hq)) hr (fun q hq hq' => hrem q (List.erase_subset hq) hq')
    have hmono := innerLoop_mono hr
    rw [innerLoop.eq_def, dif_pos hlt]
    have hvis : visit (uncached E child c) b u u[idx] mF = (.ok true, mF) := by
      unfold visit at hv ⊢
      rw [hpF]
      cases hf : (uncached E child c).flag u[idx] m with
      | error e' => rw [hf] at hv; simp at hv
      | ok v =>
        cases v with
        | false => rw [hf] at hv; simp at hv
        | true =>
          rw [hf, subSetsOfSize_of_mem hp] at hv
          rw [subSetsOfSize_of_mem hp]
          simp only at hv ⊢
          exact subsetLoop_again hw hc (hu _ hp) hpF _ m hv (fun q hq => hmono q (hle q hq))
    rw [hvis]
    exact h1
  | case3 u g idx m hlt s1 hv ih =>
    have hp := List.getElem_mem hlt
    have h1 := ih hu hnd hfl hr hrem
    have hmono := innerLoop_mono hr
    rw [innerLoop.eq_def, dif_pos hlt]
    have hvis : visit (uncached E child c) b u u[idx] mF = (.ok false, mF) := by
      unfold visit at hv ⊢
      obtain ⟨v, hvF⟩ := hfl _ hp
      rw [hvF]
      cases v with
      | false => rfl
      | true =>
        cases hf : (uncached E child c).flag u[idx] m with
        | error e' => rw [hf] at hv; simp at hv
        | ok w =>
          cases w with
          | false =>
            rw [hf] at hv
            simp only [Prod.mk.injEq, true_and] at hv
            subst hv
            have := hmono _ (hle _ hvF)
            rw [hf] at this; cases this
          | true =>
            rw [hf, subSetsOfSize_of_mem hp] at hv
            rw [subSetsOfSize_of_mem hp]
            simp only at hv ⊢
            exact subsetLoop_again hw hc (hu _ hp) hvF _ m hv (fun q hq => hmono q (hle q hq))
    rw [hvis]
    exact h1
  | case4 u g idx m hlt =>
    simp only [Prod.mk.injEq] at hr
    rw [innerLoop.eq_def, dif_neg hlt, hr.1]

theorem outerLoop_sub {σ : Type} {T : CBTest σ} {child : Label} (b : Nat) (u : List Label) (g : NetworkGraph) (s : σ)
    {u' : List Label} {g' : NetworkGraph} {s' : σ} (hr : outerLoop T child b u g s = (.ok (u', g'), s')) : ∀ q ∈ u', q ∈ u := by
  have inner : ∀ (b : Nat) (u : List Label) (g : NetworkGraph) (idx : Nat) (s : σ) {u' g' s'},
      innerLoop T child b u g idx s = (.ok (u', g'), s') → ∀ q ∈ u', q ∈ u := by
    intro b u g idx s
    fun_induction innerLoop T child b u g idx s with
    | case1 => intro u' g' m1 hr; simp at hr
    | case2 u g idx m hlt s1 hv ih => intro u' g' m1 hr q hq; exact List.erase_subset (ih hr q hq)
    | case3 u g idx m hlt s1 hv ih => intro u' g' m1 hr q hq; exact ih hr q hq
    | case4 =>
      intro u' g' m1 hr q hq
      simp only [Prod.mk.injEq, Except.ok.injEq] at hr
      rw [hr.1.1]; exact hq
  fun_induction outerLoop T child b u g s with
  | case1 => simp at hr
  | case2 b u g s hlt u1 g1 s1 hv ih => intro q hq; exact inner _ _ _ _ _ hv q (ih hr q hq)
  | case3 =>
    simp only [Prod.mk.injEq, Except.ok.injEq] at hr
    intro q hq; rw [hr.1.1]; exact hq

theorem outerLoop_again {child : Label} {c b : Nat} {mF : List (List Bool)} (hw : WFStructure E.struct)
    (hc : child ∈ E.struct.labels) (u : List Label) (g : NetworkGraph) (m : List (List Bool))
    (hu : ∀ x ∈ u, x ∈ E.struct.labels) (hnd : u.Nodup) (hgf : GraphFor child u g)
    (hfl : ∀ q ∈ u, ∃ v, (uncached E child c).flag q mF = .ok v)
    {u' : List Label} {g' : NetworkGraph} {m1 : List (List Bool)}
    (hr : outerLoop (uncached E child c) child b u g m = (.ok (u', g'), m1))
    (hle : ∀ q, (uncached E child c).flag q mF = .ok true → (uncached E child c).flag q m1 = .ok true)
    (hrem : ∀ q ∈ u, q ∉ u' → (uncached E child c).flag q mF = .ok true) :
    outerLoop (uncached E child c) child b u g mF = (.ok (u', g'), mF) := by
  fun_induction outerLoop (uncached E child c) child b u g m with
  | case1 => simp at hr
  | case2 b u g m hlt u1 g1 m2 hv ih =>
    obtain ⟨hs, hg⟩ := innerLoop_graph u g 0 m hnd hgf hv
    have hmono := outerLoop_mono hr
    have h1 := innerLoop_again (mF := mF) hw hc u g 0 m hu hnd hfl hv (fun q hq => hmono q (hle q hq))
      (fun q hq hq' => hrem q hq (fun h => hq' (outerLoop_sub _ _ _ _ hr q h)))
    have h2 := ih (fun x hx => hu x (hs.subset hx)) (hnd.sublist hs) hg (fun q hq => hfl q (hs.subset hq)) hr
      (fun q hq hq' => hrem q (hs.subset hq) hq')
    rw [outerLoop.eq_def, if_pos hlt]
    split
    · rename_i heq; rw [h1] at heq; cases heq
    · rename_i heq
      rw [h1] at heq
      simp only [Prod.mk.injEq, Except.ok.injEq] at heq
      obtain ⟨⟨rfl, rfl⟩, rfl⟩ := heq
      exact h2
  | case3 b u g m hlt =>
    simp only [Prod.mk.injEq] at hr
    rw [outerLoop.eq_def, if_neg hlt, hr.1]

/-- The flag of `q` cannot be read. -/
def Unreadable (E : CBEnv) (child : Label) (c : Nat) (q : Label) (m : List (List Bool)) : Prop :=
  ∀ v, (uncached E child c).flag q m ≠ .ok v

theorem test_unreadable (child : Label) (c : Nat) (q p : Label) (S : List Label) (m : List (List Bool))
    (h : Unreadable E child c q m) : Unreadable E child c q ((uncached E child c).test p S m).2 := by
  cases hi : E.struct.getNodeIndx p with
  | error e => simp only [uncached, calls, hi]; exact h
  | ok i =>
    cases hj : E.struct.getNodeIndx child with
    | error e => simp only [uncached, calls, hi, hj]; exact h
    | ok j =>
      rw [test_uncached hi hj]
      cases freshVerdict E child c p S with
      | error e => exact h
      | ok v =>
        cases v with
        | accept => exact h
        | reject => exact h
        | rejectMark =>
          simp only
          cases hs : setFalse m i j with
          | error e => exact h
          | ok m' =>
            intro v hv
            simp only [uncached, calls] at hv
            cases h1 : E.struct.getNodeIndx q with
            | error e => rw [h1] at hv; simp at hv
            | ok a =>
              rw [h1, hj] at hv
              simp only [Except.bind_ok', setFalse_getFlag hs] at hv
              split at hv
              · rename_i hab
                obtain ⟨rfl, _⟩ := hab
                obtain ⟨w, hw⟩ := setFalse_ok_iff.1 ⟨m', hs⟩
                apply h w
                simp only [uncached, calls, h1, hj, Except.bind_ok']; exact hw
              · apply h v
                simp only [uncached, calls, h1, hj, Except.bind_ok']; exact hv

theorem visit_unreadable {child : Label} {c b : Nat} {q p : Label} {u : List Label} {m m1 : List (List Bool)} {r : Py Bool}
    (hv : visit (uncached E child c) b u p m = (r, m1)) (h : Unreadable E child c q m) : Unreadable E child c q m1 := by
  have := visit_le (T := uncached E child c) (Le := fun a b => Unreadable E child c q a → Unreadable E child c q b)
    (fun _ h => h) (fun _ _ _ h1 h2 h => h2 (h1 h)) (fun p S s => test_unreadable child c q p S s) b u p m
  rw [hv] at this
  exact this h

theorem innerLoop_unreadable {child : Label} {c b : Nat} {q : Label} (u : List Label) (g : NetworkGraph) (idx : Nat)
    (m : List (List Bool)) (hnd : u.Nodup) (hq : q ∈ u.drop idx) (h : Unreadable E child c q m) :
    ∀ v, (innerLoop (uncached E child c) child b u g idx m).1 ≠ .ok v := by
  fun_induction innerLoop (uncached E child c) child b u g idx m with
  | case1 => intro v hv; simp at hv
  | case2 u g idx m hlt m1 hv ih =>
    have hne : q ≠ u[idx] := by
      intro hqe
      unfold visit at hv
      cases hf : (uncached E child c).flag u[idx] m with
      | error e => rw [hf] at hv; simp at hv
      | ok w => exact h w (by rw [hqe]; exact hf)
    refine ih (hnd.erase _) ?_ (visit_unreadable hv h)
    have e1 : u.erase u[idx] = u.eraseIdx idx := by rw [← eraseIdx_idxOf, hnd.idxOf_getElem idx hlt]
    rw [List.drop_eq_getElem_cons hlt, List.mem_cons] at hq
    rcases hq with hq | hq
    · exact absurd hq hne
    · have e2 : (u.eraseIdx idx).drop idx = u.drop (idx + 1) := by
        rw [List.eraseIdx_eq_take_drop_succ, List.drop_append_of_le_length (by simp; omega)]
        simp
      rw [e1, e2]; exact hq
  | case3 u g idx m hlt m1 hv ih =>
    have hne : q ≠ u[idx] := by
      intro hqe
      unfold visit at hv
      cases hf : (uncached E child c).flag u[idx] m with
      | error e => rw [hf] at hv; simp at hv
      | ok w => exact h w (by rw [hqe]; exact hf)
    refine ih hnd ?_ (visit_unreadable hv h)
    rw [List.drop_eq_getElem_cons hlt, List.mem_cons] at hq
    rcases hq with hq | hq
    · exact absurd hq hne
    · exact hq
  | case4 u g idx m hlt =>
    rw [List.drop_of_length_le (by omega)] at hq
    simp at hq

theorem flag_read {child : Label} {c : Nat} {u : List Label} {g : NetworkGraph} {m m1 : List (List Bool)}
    {v : List Label × NetworkGraph} (hnd : u.Nodup)
    (hr : outerLoop (uncached E child c) child 0 u g m = (.ok v, m1)) {q : Label} (hq : q ∈ u)
    (h : Unreadable E child c q m) : False := by
  rw [outerLoop.eq_def, if_pos (List.length_pos_of_mem hq)] at hr
  have := innerLoop_unreadable (b := 0) u g 0 m hnd (by simpa using hq) h
  split at hr
  · simp at hr
  · rename_i heq
    exact this _ (by rw [heq])

/-- Running the search for a child again on the matrix it left behind. -/
theorem uncachedOptimize_again (hw : WFStructure E.struct) {child : Label} (hc : child ∈ E.struct.labels)
    {m m' mF : List (List Bool)} {es : List Edge} (h : uncachedOptimize E m child = (.ok es, m'))
    {j : Nat} (hj : E.struct.getNodeIndx child = .ok j) (hF : ColEq j mF m')
    (hrem : ∀ p ∈ E.others child, removableEdge E m p child → ¬ removableEdge E m' p child → (p, child) ∈ es) :
    uncachedOptimize E mF child = (.ok es, mF) := by
  obtain ⟨c, _, hcs⟩ := getStatesNumber_mem hw hc
  unfold uncachedOptimize at h ⊢
  rw [hcs] at h ⊢
  simp only at h ⊢
  have hflagF : ∀ q, (uncached E child c).flag q mF = (uncached E child c).flag q m' := by
    intro q
    simp only [uncached, calls, hj]
    cases E.struct.getNodeIndx q with
    | error e => rfl
    | ok i => exact hF i
  have hrm : ∀ q m, (uncached E child c).flag q m = .ok true ↔ removableEdge E m q child := by
    intro q m
    simp only [uncached, calls, removableEdge, hj]
    cases E.struct.getNodeIndx q with
    | error e => simp
    | ok i => simp
  cases hr : outerLoop (uncached E child c) child 0 (E.others child) (E.startGraph child) m with
  | mk r1 m1 =>
    rw [hr] at h
    cases r1 with
    | error e => simp at h
    | ok v =>
      obtain ⟨u, g⟩ := v
      simp only [Prod.mk.injEq, Except.ok.injEq] at h
      obtain ⟨h1, h2⟩ := h
      subst h2
      have hI := outerLoop_uncached (c := c) (b := 0) (m₀ := m) hw hc (fun x hx => (others_mem.1 hx).1) (others_nodup hw child) (E.others child)
        (E.startGraph child) m ⟨List.Sublist.refl _, fun p h1 h2 => absurd h1 h2, fun p _ _ S _ hl => by omega, Marks.refl m⟩
      rw [hr] at hI
      have hg := outerLoop_graph 0 (E.others child) (E.startGraph child) m (others_nodup hw child) (startGraph_for child) hr
      have hR := hI.2 u g rfl
      have hmem : ∀ q, (q, child) ∈ es ↔ q ∈ u := by
        intro q
        rw [← h1]
        refine (mem_edgesView hg.2.keys).trans ((hg.2.mem _).trans ?_)
        simp
      -- every flag of a candidate can be read: the first run read it
      have hfl : ∀ q ∈ E.others child, ∃ v, (uncached E child c).flag q mF = .ok v := by
        intro q hq
        rw [hflagF]
        by_contra hcon
        have hne : ∀ v, (uncached E child c).flag q m1 ≠ .ok v := fun v hv => hcon ⟨v, hv⟩
        -- then it could not be read in the first run either
        have h0 : ∀ v, (uncached E child c).flag q m ≠ .ok v := by
          intro v hv
          obtain ⟨i, _, hi⟩ := getNodeIndx_mem hw (others_mem.1 hq).1
          simp only [uncached, calls, hi, hj, Except.bind_ok'] at hv
          rcases hR.marks i j with e | ⟨e, _⟩
          · apply hne v
            simp only [uncached, calls, hi, hj, Except.bind_ok', e]; exact hv
          · apply hne false
            simp only [uncached, calls, hi, hj, Except.bind_ok', e]
        exact flag_read (others_nodup hw child) hr hq h0
      have := outerLoop_again (mF := mF) (c := c) hw hc (E.others child) (E.startGraph child) m (fun x hx => (others_mem.1 hx).1)
        (others_nodup hw child) (startGraph_for child) hfl hr (fun q hq => by rw [← hflagF]; exact hq) (by
          intro q hq hqu
          rw [hflagF]
          by_contra hcon
          have hm := (hR.removed q hq hqu).1
          exact hqu ((hmem q).1 (hrem q hq ((hrm q m).1 hm) (fun h => hcon ((hrm q m1).2 h)))))
      rw [this]
      exact Prod.ext (congrArg Except.ok h1) rfl

end CBEnv
end PyCTBN
