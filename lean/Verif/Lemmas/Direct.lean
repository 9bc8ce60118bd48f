import Verif.Model.Ctpc
import Verif.Lemmas.Estimate
import Verif.Lemmas.Cache

/-! What one complete test estimates: the closed form of both estimations, with and without cache. -/

namespace PyCTBN
open Spec

/-- The estimation of `n` from parents `ls`, all look-ups in `s`. -/
def estFrom (s : Structure) (tot : Nat) (t : Trajectory) (n : Label) (ls : List Label) : Py SetOfCims := do
  let c ← s.getStatesNumber n
  let i ← s.getNodeIndx n
  let ps ← ls.mapM s.getStatesNumber
  let is ← ls.mapM s.getNodeIndx
  let T ← computeStateResTime t.times t.trajectory (i :: is) (buildTimeScalarIndexing c ps) ps.prod c
  let M ← computeStateTransitions i t.rows ((i + tot) :: i :: is) (buildTransitionScalarIndexing c ps) ps.prod c
  return ⟨n, ps, c, buildPCombs ps, false, List.zipWith Cim.build T M⟩

theorem mapM_of_map_ok {α β} {f : α → Py β} {l : List α} {bs : List β} (h : bs.map Except.ok = l.map f) :
    l.mapM f = .ok bs := by
  induction l generalizing bs with
  | nil => simp at h; subst h; rfl
  | cons a l ih =>
    cases bs with
    | nil => simp at h
    | cons b bs =>
      simp only [List.map_cons, List.cons.injEq] at h
      rw [List.mapM_cons, ← h.1, ih h.2]; rfl

theorem estimate_eq_estFrom {s : Structure} {g : NetworkGraph} (h : Reach s g) {n : Label} (hn : n ∈ s.labels)
    (t : Trajectory) : ParamsEst.estimate t g n = estFrom s s.total t n (parentsOf g n) := by
  obtain ⟨c, i, ps, is, h1, h2, h3, h4, h5⟩ := estimate_unfold h hn
  rw [h5, estFrom, h1, h2, mapM_of_map_ok h3, mapM_of_map_ok h4]
  rfl

theorem mapM_congr' {α β} {f g : α → Py β} {l : List α} (h : ∀ a ∈ l, f a = g a) : l.mapM f = l.mapM g := by
  induction l with
  | nil => rfl
  | cons a l ih =>
    rw [List.mapM_cons, List.mapM_cons, h a (by simp), ih (fun x hx => h x (by simp [hx]))]

theorem estFrom_congr {s s' : Structure} {tot : Nat} {t : Trajectory} {n : Label} {ls : List Label}
    (h1 : ∀ l, l = n ∨ l ∈ ls → s.getStatesNumber l = s'.getStatesNumber l)
    (h2 : ∀ l, l = n ∨ l ∈ ls → s.getNodeIndx l = s'.getNodeIndx l) :
    estFrom s tot t n ls = estFrom s' tot t n ls := by
  unfold estFrom
  rw [h1 n (Or.inl rfl), h2 n (Or.inl rfl), mapM_congr' (fun l hl => h1 l (Or.inr hl)),
    mapM_congr' (fun l hl => h2 l (Or.inr hl))]

theorem estimate_split (t : Trajectory) (g : NetworkGraph) (n : Label) :
    ParamsEst.estimate t g n = g.fastInit n >>= fun g' => computeOn t g' n := by
  unfold ParamsEst.estimate computeOn
  rfl

/-! ## masking -/

theorem maskRow_map_filter (l : List Label) (f : Label → Bool) : SetOfCims.maskRow (l.map f) l = l.filter f := by
  unfold SetOfCims.maskRow
  exact zip_map_filter_fst l f (fun b => b)

theorem maskRow_cons {α} (b : Bool) (m : List Bool) (a : α) (r : List α) :
    SetOfCims.maskRow (b :: m) (a :: r) = if b then a :: SetOfCims.maskRow m r else SetOfCims.maskRow m r := by
  unfold SetOfCims.maskRow
  cases b <;> simp

theorem maskRow_length {α} {keys : List Label} {vals : List α} (f : Label → Bool) (hl : vals.length = keys.length) :
    (SetOfCims.maskRow (keys.map f) vals).length = (keys.filter f).length := by
  induction keys generalizing vals with
  | nil => cases vals <;> simp_all [SetOfCims.maskRow]
  | cons k ks ih =>
    cases vals with
    | nil => simp at hl
    | cons v vs =>
      simp only [List.length_cons, Nat.add_right_cancel_iff] at hl
      rw [List.map_cons, maskRow_cons]
      by_cases hk : f k = true <;> simp [hk, ih hl]

theorem lookupPos_mask {α} {keys : List Label} {vals : List α} {l : Label} (f : Label → Bool)
    (hl : vals.length = keys.length) (hf : f l = true) :
    lookupPos (keys.filter f) (SetOfCims.maskRow (keys.map f) vals) l = lookupPos keys vals l := by
  induction keys generalizing vals with
  | nil => simp at hl; subst hl; rfl
  | cons k ks ih =>
    cases vals with
    | nil => simp at hl
    | cons v vs =>
      simp only [List.length_cons, Nat.add_right_cancel_iff] at hl
      rw [List.map_cons, maskRow_cons, lookupPos_cons]
      by_cases hk : f k = true
      · simp only [hk, List.filter_cons, if_true]
        rw [lookupPos_cons, ih hl]
      · have hkl : k ≠ l := by rintro rfl; exact hk hf
        simp only [hk, List.filter_cons, hkl, if_false]
        exact ih hl

namespace CBEnv
variable {E : CBEnv}

/-- The labels a test works on are known and distinct enough. -/
structure TestArgs (E : CBEnv) (p child : Label) (S : List Label) : Prop where
  wf : WFStructure E.struct
  p_mem : p ∈ E.struct.labels
  child_mem : child ∈ E.struct.labels
  S_mem : ∀ q ∈ S, q ∈ E.struct.labels
  p_ne : p ≠ child
  p_notin : p ∉ S
  child_notin : child ∉ S

/-- The estimation given the parent set `K`. -/
def direct (E : CBEnv) (child : Label) (K : Finset Label) : Py SetOfCims :=
  estFrom E.struct E.tot E.traj child (E.struct.labels.filter (fun l => decide (l ∈ K)))

theorem structure2_labels (p child : Label) (S : List Label) :
    (E.structure2 p child S).labels = E.struct.labels.filter (fun l => decide (l ∈ S ++ [child] ++ [p])) :=
  maskRow_map_filter _ _

theorem mem_structure2 {p child : Label} {S : List Label} {l : Label} :
    l ∈ (E.structure2 p child S).labels ↔ l ∈ E.struct.labels ∧ (l ∈ S ∨ l = child ∨ l = p) := by
  rw [structure2_labels, List.mem_filter]; simp [or_assoc]

theorem structure2_states (hw : WFStructure E.struct) {p child : Label} {S : List Label} {l : Label}
    (hl : l ∈ S ∨ l = child ∨ l = p) :
    (E.structure2 p child S).getStatesNumber l = E.struct.getStatesNumber l := by
  rw [Structure.getStatesNumber_eq, Structure.getStatesNumber_eq, structure2_labels]
  exact lookupPos_mask (fun l => decide (l ∈ S ++ [child] ++ [p])) hw.valLen (by simpa [or_assoc] using hl)

theorem structure2_indx (hw : WFStructure E.struct) {p child : Label} {S : List Label} {l : Label}
    (hl : l ∈ S ∨ l = child ∨ l = p) :
    (E.structure2 p child S).getNodeIndx l = E.struct.getNodeIndx l := by
  rw [Structure.getNodeIndx_eq, Structure.getNodeIndx_eq, structure2_labels]
  exact lookupPos_mask (fun l => decide (l ∈ S ++ [child] ++ [p])) hw.idxLen (by simpa [or_assoc] using hl)

theorem TestArgs.closed {p child : Label} {S : List Label} (h : E.TestArgs p child S) :
    ClosedStructure (E.structure2 p child S) := by
  refine ⟨⟨?_, ?_, ?_⟩, ?_⟩
  · rw [structure2_labels]; exact h.wf.nodup.filter _
  · rw [structure2_labels]; exact maskRow_length _ h.wf.idxLen
  · rw [structure2_labels]; exact maskRow_length _ h.wf.valLen
  · intro e he
    simp only [structure2, List.mem_map, List.mem_cons] at he
    obtain ⟨q, hq, rfl⟩ := he
    refine ⟨mem_structure2.2 ?_, mem_structure2.2 ⟨h.child_mem, Or.inr (Or.inl rfl)⟩⟩
    rcases hq with rfl | hq
    · exact ⟨h.p_mem, Or.inr (Or.inr rfl)⟩
    · exact ⟨h.S_mem q hq, Or.inl hq⟩

/-- The estimation with the test parent. -/
theorem direct_with {p child : Label} {S : List Label} (h : E.TestArgs p child S) :
    ∃ g2, (NetworkGraph.new (E.structure2 p child S)).fastInit child = .ok g2 ∧
      computeOn E.traj g2 child = E.direct child (p :: S).toFinset ∧
      Reach (E.structure2 p child S) g2 ∧ (∀ e, e ∈ g2.graph.edges ↔ e ∈ (E.structure2 p child S).edges) ∧
      (∀ l, l ∈ g2.graph.keys ↔ l ∈ (E.structure2 p child S).labels) := by
  have hr : Reach (E.structure2 p child S) (NetworkGraph.new (E.structure2 p child S)) := Reach.new h.closed
  have hc : child ∈ (E.structure2 p child S).labels := mem_structure2.2 ⟨h.child_mem, Or.inr (Or.inl rfl)⟩
  obtain ⟨g2, d, k1, k2, k3, k4, k5, k6, k7, k8, k9⟩ := fastInit_spec (GInv.new h.closed) (n := child) hc
  refine ⟨g2, k1, ?_, Reach.fastInit child hr hc k1, ?_, ?_⟩
  · have he := estimate_eq_estFrom hr hc E.traj
    rw [estimate_split, k1] at he
    simp only [Except.bind_ok'] at he
    rw [he, direct]
    have hp : parentsOf (NetworkGraph.new (E.structure2 p child S)) child
        = E.struct.labels.filter (fun l => decide (l ∈ (p :: S).toFinset)) := by
      unfold parentsOf
      show List.filter _ (E.structure2 p child S).labels = _
      rw [structure2_labels, List.filter_filter]
      apply List.filter_congr
      intro l hl
      simp only [NetworkGraph.hasEdge, DiGraph.hasEdge, NetworkGraph.new, DiGraph.empty, structure2]
      rw [Bool.eq_iff_iff]
      simp only [List.not_mem_nil, decide_false, Bool.false_or, Bool.and_eq_true, decide_eq_true_eq, List.mem_map,
        Prod.mk.injEq, and_true, exists_eq_right, List.mem_cons, List.mem_append, List.mem_toFinset, List.mem_singleton,
        List.not_mem_nil, or_false]
      tauto
    rw [hp]
    apply estFrom_congr
    · intro l hl
      apply structure2_states h.wf
      rcases hl with rfl | hl
      · exact Or.inr (Or.inl rfl)
      · simp at hl; tauto
    · intro l hl
      apply structure2_indx h.wf
      rcases hl with rfl | hl
      · exact Or.inr (Or.inl rfl)
      · simp at hl; tauto
  · intro e
    rw [k5]
    simp [NetworkGraph.new, DiGraph.empty]
  · exact k6

/-- The estimation without the test parent, on the graph left over by the one with it. -/
theorem direct_without {p child : Label} {S : List Label} (h : E.TestArgs p child S) {g2 : NetworkGraph}
    (hr : Reach (E.structure2 p child S) g2) (he : ∀ e, e ∈ g2.graph.edges ↔ e ∈ (E.structure2 p child S).edges)
    (hk : ∀ l, l ∈ g2.graph.keys ↔ l ∈ (E.structure2 p child S).labels) :
    (do
      let g ← g2.removeNode p
      let g ← g.fastInit child
      computeOn E.traj g child) = E.direct child S.toFinset := by
  obtain ⟨hI, hs⟩ := hr.inv
  have hp2 : p ∈ (E.structure2 p child S).labels := mem_structure2.2 ⟨h.p_mem, Or.inr (Or.inr rfl)⟩
  have hrm := Structure.removeNode_of_mem h.closed.toWFStructure hp2
  set s3 : Structure := { E.structure2 p child S with
      labels := (E.structure2 p child S).labels.eraseIdx ((E.structure2 p child S).labels.idxOf p)
      indexes := (E.structure2 p child S).indexes.eraseIdx ((E.structure2 p child S).labels.idxOf p)
      vals := (E.structure2 p child S).vals.eraseIdx ((E.structure2 p child S).labels.idxOf p)
      edges := (E.structure2 p child S).edges.filter (fun e => e.1 != p && e.2 != p) } with hs3
  set g3 : NetworkGraph := ⟨s3, ⟨g2.graph.nodes.filter (fun q => q.1 != p),
    g2.graph.edges.filter (fun e => e.1 != p && e.2 != p)⟩, none⟩ with hg3
  have hg : g2.removeNode p = .ok g3 := by
    unfold NetworkGraph.removeNode DiGraph.removeNode
    rw [if_pos (DiGraph.hasNode_iff.2 ((hk p).2 hp2)), hs, hrm]
    rfl
  rw [hg]
  have hr3 : Reach s3 g3 := Reach.removeNode p hr hg
  have hlab : s3.labels = E.struct.labels.filter (fun l => decide (l ≠ p ∧ (l ∈ S ∨ l = child))) := by
    show ((E.structure2 p child S).labels.eraseIdx ((E.structure2 p child S).labels.idxOf p)) = _
    rw [eraseIdx_idxOf, structure2_labels, (h.wf.nodup.filter _).erase_eq_filter, List.filter_filter]
    apply List.filter_congr
    intro l _
    rw [Bool.eq_iff_iff]
    simp only [Bool.and_eq_true, bne_iff_ne, decide_eq_true_eq, List.mem_append, List.mem_singleton]
    tauto
  have hc3 : child ∈ s3.labels := by
    rw [hlab, List.mem_filter]; simp [h.child_mem, Ne.symm h.p_ne]
  have e1 := estimate_eq_estFrom hr3 hc3 E.traj
  rw [estimate_split] at e1
  simp only [Except.bind_ok']
  rw [e1, direct]
  have hpar : parentsOf g3 child = E.struct.labels.filter (fun l => decide (l ∈ S.toFinset)) := by
    unfold parentsOf
    show List.filter _ s3.labels = _
    rw [hlab, List.filter_filter]
    apply List.filter_congr
    intro l hl
    rw [Bool.eq_iff_iff]
    simp only [NetworkGraph.hasEdge, DiGraph.hasEdge, hg3, hs3, Bool.and_eq_true, Bool.or_eq_true, decide_eq_true_eq,
      List.mem_filter, he, bne_iff_ne, or_self, List.mem_toFinset, structure2, List.mem_map, Prod.mk.injEq, and_true,
      exists_eq_right, List.mem_cons]
    constructor
    · rintro ⟨⟨h1, h2, h3⟩, h4, h5⟩
      rcases h1 with rfl | h1
      · exact absurd rfl h2
      · exact h1
    · intro hlS
      have : l ≠ p := by rintro rfl; exact h.p_notin hlS
      exact ⟨⟨Or.inr hlS, this, Ne.symm h.p_ne⟩, this, Or.inl hlS⟩
  rw [hpar]
  show estFrom s3 E.tot E.traj child _ = _
  have hne : ∀ l, l = child ∨ l ∈ E.struct.labels.filter (fun l => decide (l ∈ S.toFinset)) → l ≠ p ∧ (l ∈ S ∨ l = child ∨ l = p) := by
    rintro l (rfl | hl)
    · exact ⟨Ne.symm h.p_ne, Or.inr (Or.inl rfl)⟩
    · simp at hl
      refine ⟨?_, Or.inl hl.2⟩
      rintro rfl; exact h.p_notin hl.2
  apply estFrom_congr
  · intro l hl
    rw [Structure.getStatesNumber_eq]
    show lookupPos ((E.structure2 p child S).labels.eraseIdx _) ((E.structure2 p child S).vals.eraseIdx _) l = _
    rw [lookupPos_eraseIdx h.closed.valLen (hne l hl).1]
    exact structure2_states h.wf (hne l hl).2
  · intro l hl
    rw [Structure.getNodeIndx_eq]
    show lookupPos ((E.structure2 p child S).labels.eraseIdx _) ((E.structure2 p child S).indexes.eraseIdx _) l = _
    rw [lookupPos_eraseIdx h.closed.idxLen (hne l hl).1]
    exact structure2_indx h.wf (hne l hl).2

end CBEnv
end PyCTBN
