import Verif.Lemmas.Search
import Verif.Props.Ctpc

namespace PyCTBN
open Spec

theorem getNodeIndx_range {s : Structure} (hw : WFStructure s) (hi : s.indexes = List.range s.labels.length) (l : Label) (i : Nat) :
    s.getNodeIndx l = .ok i ↔ s.labels[i]? = some l := by
  by_cases hl : l ∈ s.labels
  · have hlt := List.idxOf_lt_length_of_mem hl
    have : s.getNodeIndx l = .ok (s.labels.idxOf l) := by
      unfold Structure.getNodeIndx
      rw [pyIndex_of_mem hl]
      simp only [Except.bind_ok']
      rw [pyGet_ok, hi, List.getElem?_range hlt]
    rw [this]
    constructor
    · intro h; cases h; exact List.getElem?_idxOf hl
    · intro h
      obtain ⟨hlt2, h⟩ := List.getElem?_eq_some_iff.1 h
      rw [← h, hw.nodup.idxOf_getElem]
  · have : s.getNodeIndx l = .error .valueError := by
      unfold Structure.getNodeIndx
      rw [pyIndex_of_not_mem hl]; rfl
    rw [this]
    constructor
    · intro h; cases h
    · intro h; exact absurd (List.mem_of_getElem? h) hl

theorem setFalse_length {m m' : List (List Bool)} {i j : Nat} (h : setFalse m i j = .ok m') : m'.length = m.length := by
  unfold setFalse at h
  split at h
  · cases h
  · split at h
    · cases h; simp
    · cases h

theorem buildRemovable_length {s : Structure} {N : Nat} {known : List Edge} {m : List (List Bool)}
    (h : buildRemovable s N known = .ok m) : m.length = N := by
  unfold buildRemovable at h
  have : ∀ m₀ : List (List Bool), known.foldlM (fun m e => do
      let i ← s.getNodeIndx e.1
      let j ← s.getNodeIndx e.2
      setFalse m i j) m₀ = .ok m → m.length = m₀.length := by
    clear h
    induction known with
    | nil => intro m₀ h; simp only [List.foldlM_nil, Except.pure_eq_ok', Except.ok.injEq] at h; rw [h]
    | cons e es ih =>
      intro m₀ h
      rw [List.foldlM_cons] at h
      cases h1 : s.getNodeIndx e.1 with
      | error x => rw [h1] at h; simp at h
      | ok a =>
        cases h2 : s.getNodeIndx e.2 with
        | error x => rw [h1, h2] at h; simp at h
        | ok b =>
          rw [h1, h2] at h
          simp only [Except.bind_ok'] at h
          cases h3 : setFalse m₀ a b with
          | error x => rw [h3] at h; simp at h
          | ok m1 =>
            rw [h3] at h
            simp only [Except.bind_ok'] at h
            rw [ih m1 h, setFalse_length h3]
  rw [this _ h, List.length_replicate]

namespace SearchEnv
variable {S : Type} [LinearOrder S] {E : SearchEnv S} {n : Label} {mp : Option ℤ}

/-- The prior parents are the sources of the known edges into `n`. -/
theorem priorParents_spec {known : List Edge} (hE : SearchReady E) (hK : KnownEdges E known) {j : Nat}
    (hj : E.struct.getNodeIndx n = .ok j) :
    ∃ prior, E.priorParents j = .ok prior ∧ prior.Nodup ∧ ∀ p, p ∈ prior ↔ (p, n) ∈ known := by
  have hlen := buildRemovable_length hK.built
  have hex := removable_matrix_exact hK.built
  have hbuilt := (removable_matrix_built_iff E.struct.labels.length known).1 ⟨_, hK.built⟩
  have hjn := (getNodeIndx_range hE.wf hK.indexed n j).1 hj
  have hjlt : j < E.struct.labels.length := (List.getElem?_eq_some_iff.1 hjn).1
  have hflag : ∀ i, i < E.struct.labels.length → ∃ b, getFlag E.removable i j = .ok b ∧
      (b = false ↔ ∃ p, E.struct.labels[i]? = some p ∧ (p, n) ∈ known) := by
    intro i hi
    by_cases hc : ∃ e ∈ known, E.struct.getNodeIndx e.1 = .ok i ∧ E.struct.getNodeIndx e.2 = .ok j
    · refine ⟨false, (hex i j).1 hc, ?_⟩
      obtain ⟨e, he, h1, h2⟩ := hc
      rw [getNodeIndx_range hE.wf hK.indexed] at h1 h2
      rw [hjn] at h2; cases h2
      exact ⟨fun _ => ⟨e.1, h1, he⟩, fun _ => rfl⟩
    · refine ⟨true, by rw [(hex i j).2 hc, if_pos ⟨hi, hjlt⟩], ?_⟩
      simp only [Bool.true_eq_false, false_iff]
      rintro ⟨p, h1, h2⟩
      exact hc ⟨(p, n), h2, (getNodeIndx_range hE.wf hK.indexed _ _).2 h1, (getNodeIndx_range hE.wf hK.indexed _ _).2 hjn⟩
  have key : ∀ k, k ≤ E.struct.labels.length → ∃ prior,
      (List.range k).foldlM (fun acc i => do
        if ← getFlag E.removable i j then return acc
        else do
          let p ← E.struct.getNodeId i
          return acc ++ [p]) ([] : List Label) = .ok prior ∧ prior.Sublist (E.struct.labels.take k) ∧
        ∀ p, p ∈ prior ↔ (p, n) ∈ known ∧ p ∈ E.struct.labels.take k := by
    intro k hk
    induction k with
    | zero => exact ⟨[], rfl, by simp, by simp⟩
    | succ k ih =>
      obtain ⟨prior, h1, h2, h3⟩ := ih (by omega)
      obtain ⟨b, hb1, hb2⟩ := hflag k (by omega)
      have hget : E.struct.labels[k]? = some E.struct.labels[k] := List.getElem?_eq_getElem (by omega)
      have htake : E.struct.labels.take (k + 1) = E.struct.labels.take k ++ [E.struct.labels[k]] := by
        rw [List.take_succ_eq_append_getElem (by omega)]
      rw [List.range_succ, List.foldlM_append, h1]
      simp only [Except.bind_ok', List.foldlM_cons, List.foldlM_nil, hb1]
      cases b with
      | true =>
        have hnk : (E.struct.labels[k], n) ∉ known := fun h => by simpa using hb2.2 ⟨_, hget, h⟩
        refine ⟨prior, by simp [pure, Except.pure], ?_, fun p => ?_⟩
        · rw [htake]; exact h2.trans (List.sublist_append_left _ _)
        · rw [h3, htake, List.mem_append, List.mem_singleton]
          constructor
          · rintro ⟨ha, hb⟩; exact ⟨ha, Or.inl hb⟩
          · rintro ⟨ha, hb | rfl⟩
            · exact ⟨ha, hb⟩
            · exact absurd ha hnk
      | false =>
        obtain ⟨p, hp1, hp2⟩ := hb2.1 rfl
        rw [hget] at hp1; cases hp1
        have hid : E.struct.getNodeId k = .ok E.struct.labels[k] := by unfold Structure.getNodeId; rw [pyGet_ok, hget]
        refine ⟨prior ++ [E.struct.labels[k]], by simp [hid, pure, Except.pure], ?_, fun p => ?_⟩
        · rw [htake]; exact h2.append (List.Sublist.refl _)
        · rw [List.mem_append, h3, htake, List.mem_append, List.mem_singleton]
          constructor
          · rintro (⟨ha, hb⟩ | rfl)
            · exact ⟨ha, Or.inl hb⟩
            · exact ⟨hp2, Or.inr rfl⟩
          · rintro ⟨ha, hb | hb⟩
            · exact Or.inl ⟨ha, hb⟩
            · exact Or.inr hb
  obtain ⟨prior, h1, h2, h3⟩ := key _ le_rfl
  rw [List.take_length] at h2 h3
  refine ⟨prior, ?_, hE.wf.nodup.sublist h2, fun p => ?_⟩
  · unfold priorParents; rw [hlen]; exact h1
  · rw [h3]
    constructor
    · exact fun h => h.1
    · intro h
      obtain ⟨i, _, k1, _, _, _⟩ := hbuilt _ h
      exact ⟨h, List.mem_of_getElem? ((getNodeIndx_range hE.wf hK.indexed _ _).1 k1)⟩

theorem initGraph_spec (prior : List Label) (hE : SearchReady E) (hn : n ∈ E.struct.labels) (hp : ∀ p ∈ prior, p ∈ E.struct.labels) :
    SGraph E.struct n prior (E.initGraph n prior) := by
  have : ∀ (l done : List Label) g, (∀ p ∈ l, p ∈ E.struct.labels) → SGraph E.struct n done g →
      SGraph E.struct n (done ++ l) (l.foldl (fun g p => g.addEdges [(p, n)]) g) := by
    intro l
    induction l with
    | nil => intro done g _ h; simpa using h
    | cons p l ih =>
      intro done g hl h
      rw [List.foldl_cons]
      have := ih (done ++ [p]) _ (fun q hq => hl q (by simp [hq])) (h.add hn (hl p (by simp)) (u' := done ++ [p]) (by simp))
      simpa using this
  have h0 : SGraph E.struct n [] (NetworkGraph.new E.struct) := ⟨Reach.new ⟨hE.wf, by intro e he; rw [hE.noEdges] at he; cases he⟩, fun e => by
    simp only [List.not_mem_nil, and_false, iff_false]
    exact List.not_mem_nil⟩
  simpa [initGraph] using this prior [] _ hp h0

theorem mem_otherNodes {prior : List Label} {l : Label} :
    l ∈ E.otherNodes n prior ↔ l ∈ E.struct.labels ∧ l ≠ n ∧ l ∉ prior := by
  unfold otherNodes; rw [List.mem_filter]; simp

/-- The state of a search between iterations. -/
structure SInv (E : SearchEnv S) (n : Label) (mp : Option ℤ) (prior : List Label) (g : NetworkGraph) (best : S) (count : Nat)
    (log : List S) (u : List Label) : Prop where
  graph : SGraph E.struct n u g
  key : n ∈ g.graph.keys
  nodup : u.Nodup
  loop : n ∉ u
  bound : ∀ k, mp = some k → (u.length : ℤ) ≤ max k prior.length
  keeps : (∀ k, mp = some k → (E.struct.labels.length : ℤ) ≤ k + 1) → ∀ p ∈ prior, p ∈ u
  score : ∀ f, ScoreOf E n f → f u.toFinset = .ok best
  log : ∃ pre post, log = pre ++ best :: post ∧ (∀ x ∈ pre, x < best) ∧ (∀ x ∈ post, x ≤ best) ∧ post.length = count

theorem SInv.stalled {prior : List Label} {g : NetworkGraph} {best : S} {count : Nat} {log : List S} {u : List Label}
    (h : SInv E n mp prior g best count log u) : Stalled log count := by
  obtain ⟨pre, post, h1, h2, h3, h4⟩ := h.log
  exact ⟨pre, best, post, h1, h2, h3, h4⟩

theorem SInv.step {prior : List Label} {g : NetworkGraph} {best : S} {count : Nat} {log : List S} {u : List Label}
    (hE : SearchReady E) (h : SInv E n mp prior g best count log u) (hn : n ∈ E.struct.labels) {p : Label}
    (hp : p ∈ E.struct.labels) (hpn : p ≠ n) (hpp : p ∉ prior) {r : Nat}
    {out : NetworkGraph × Bool × S} (ht : E.tryMove n mp g best p r = .ok out) :
    out.2.1 = decide (best < out.2.2) ∧
    ∃ u', SInv E n mp prior out.1 (if out.2.1 then out.2.2 else best) (if out.2.1 then 0 else count + 1) (log ++ [out.2.2]) u' := by
  obtain ⟨u', d, hP, k1, k2, k3, k4⟩ := tryMove_spec hE h.graph h.nodup h.key hn hp ht
  refine ⟨k1, ?_⟩
  by_cases himp : best < out.2.2
  · have ho : out.2.1 = true := by rw [k1]; simp [himp]
    rw [ho] at k2 ⊢
    simp only [if_true] at k2 ⊢
    refine ⟨u', k2, k3, hP.nodup h.nodup, ?_, ?_, ?_, k4, ?_⟩
    · cases hP with
      | remove _ => exact fun hc => h.loop (List.erase_subset hc)
      | add _ _ => exact fun hc => (List.mem_cons.1 hc).elim (fun e => hpn e.symm) h.loop
      | swap q k _ _ _ _ => exact fun hc => (List.mem_cons.1 hc).elim (fun e => hpn e.symm) (fun hc => h.loop (List.erase_subset hc))
    · intro k hk
      have := h.bound k hk
      cases hP with
      | remove _ => have := List.length_erase_le (a := p) (l := u); omega
      | add _ ha => have := ha k hk; rw [List.length_cons]; omega
      | swap q k' _ hk' _ hq =>
        have h1 := List.length_erase_of_mem hq
        have h2 := List.length_pos_of_mem hq
        rw [List.length_cons]; omega
    · intro hbig q hq
      have hqu := h.keeps hbig q hq
      cases hP with
      | remove _ => exact (h.nodup.mem_erase_iff).2 ⟨fun e => hpp (e ▸ hq), hqu⟩
      | add _ _ => exact List.mem_cons_of_mem _ hqu
      | swap x k hpu hk hle hx =>
        exfalso
        have hb := hbig k hk
        have hnd : (n :: p :: u).Nodup := by
          rw [List.nodup_cons, List.nodup_cons, List.mem_cons]
          exact ⟨fun hc => hc.elim (fun e => hpn e.symm) h.loop, hpu, h.nodup⟩
        have hsub : (n :: p :: u) ⊆ E.struct.labels := by
          intro y hy
          rcases List.mem_cons.1 hy with rfl | hy
          · exact hn
          rcases List.mem_cons.1 hy with rfl | hy
          · exact hp
          exact h.graph.sub y hy
        have := (hnd.subperm hsub).length_le
        simp only [List.length_cons] at this
        omega
    · obtain ⟨pre, post, h1, h2, h3, h4⟩ := h.log
      refine ⟨log, [], by simp, fun x hx => ?_, by simp, rfl⟩
      rw [h1] at hx
      rcases List.mem_append.1 hx with hx | hx
      · exact (h2 x hx).trans himp
      rcases List.mem_cons.1 hx with rfl | hx
      · exact himp
      exact (h3 x hx).trans_lt himp
  · have ho : out.2.1 = false := by rw [k1]; simp [himp]
    rw [ho] at k2 ⊢
    simp only [Bool.false_eq_true, if_false] at k2 ⊢
    refine ⟨u, k2, k3, h.nodup, h.loop, h.bound, h.keeps, h.score, ?_⟩
    obtain ⟨pre, post, h1, h2, h3, h4⟩ := h.log
    refine ⟨pre, post ++ [out.2.2], by simp [h1], h2, fun x hx => ?_, by simp [h4]⟩
    rcases List.mem_append.1 hx with hx | hx
    · exact h3 x hx
    · rw [List.mem_singleton.1 hx]; exact not_lt.1 himp

/-- The state before the first iteration. -/
theorem SInv.init {prior : List Label} (hE : SearchReady E) (hn : n ∈ E.struct.labels) (hp : ∀ p ∈ prior, p ∈ E.struct.labels)
    (hnd : prior.Nodup) (hloop : n ∉ prior) {s : S} {g : NetworkGraph}
    (h : E.scoreGraph n (E.initGraph n prior) = .ok (s, g)) : SInv E n mp prior g s 0 [s] prior := by
  obtain ⟨k1, k2, k3⟩ := scoreGraph_spec hE (initGraph_spec prior hE hn hp) hn h
  exact ⟨k1, k2, hnd, hloop, fun k _ => by omega, fun _ _ h => h, k3, [], [], by simp⟩

/-- The initial structure's own score. -/
theorem scoreGraph_init {prior : List Label} (hE : SearchReady E) (hn : n ∈ E.struct.labels) (hp : ∀ p ∈ prior, p ∈ E.struct.labels)
    (hs : Scorable E n) : ∃ s g, E.scoreGraph n (E.initGraph n prior) = .ok (s, g) := by
  have hg := initGraph_spec prior hE hn hp
  obtain ⟨g', h1, -, -⟩ := hg.fastInit hn hE.noEdges
  obtain ⟨s, h2⟩ := hs _ _ hg.reach h1
  refine ⟨s, g', ?_⟩
  unfold scoreGraph
  rw [h1]
  simp [h2, pure, Except.pure]

/-- A move can be evaluated. -/
theorem tryMove_ok {g : NetworkGraph} {u : List Label} (hE : SearchReady E) (hg : SGraph E.struct n u g) (hu : u.Nodup)
    (hk : n ∈ g.graph.keys) (hn : n ∈ E.struct.labels) {p : Label} (hp : p ∈ E.struct.labels) (hs : Scorable E n)
    (hmp : ∀ k, mp = some k → 1 ≤ k) (best : S) (r : Nat) : ∃ out, E.tryMove n mp g best p r = .ok out := by
  have hpr : ∃ out, propose n mp g p r = .ok out := by
    unfold propose
    split
    · exact ⟨_, rfl⟩
    · cases mp with
      | none => exact ⟨_, rfl⟩
      | some k =>
        obtain ⟨ps, h1, h2⟩ := hg.parents hu hk
        simp only [h1, Except.bind_ok']
        by_cases hk2 : k ≤ ps.length
        · simp only [hk2, if_true]
          have hne : ps ≠ [] := by rintro rfl; have := hmp k rfl; simp at hk2; omega
          obtain ⟨x, _, hx⟩ := choice_ok hne r
          exact ⟨_, by simp only [hx, Except.bind_ok']; rfl⟩
        · exact ⟨_, by simp only [hk2, if_false, Except.bind_ok']; rfl⟩
  obtain ⟨⟨g1, added, removed⟩, hpr⟩ := hpr
  obtain ⟨u', hP, hg1, hadd⟩ := propose_spec hg hu hk hn hp hpr
  obtain ⟨g2, h1, -, -⟩ := hg1.fastInit hn hE.noEdges
  obtain ⟨s, h2⟩ := hs _ _ hg1.reach h1
  unfold tryMove
  rw [hpr]
  simp only [Except.bind_ok']
  have : E.scoreGraph n g1 = .ok (s, g2) := by unfold scoreGraph; rw [h1]; simp [h2, pure, Except.pure]
  rw [this]
  simp only [Except.bind_ok']
  split <;> exact ⟨_, rfl⟩

/-- Whenever the loop returns, the invariant holds of what it returns. -/
theorem hillLoop_inv {prior others : List Label} {patience : Option ℤ} {pick drop : Nat → Nat} (hE : SearchReady E)
    (hn : n ∈ E.struct.labels) (ho : ∀ p ∈ others, p ∈ E.struct.labels ∧ p ≠ n ∧ p ∉ prior)
    (k i : Nat) (g : NetworkGraph) (best : S) (count : Nat) (log : List S) (u : List Label)
    (hI : SInv E n mp prior g best count log u) {g' : NetworkGraph} {log' : List S}
    (h : E.hillLoop n others mp patience pick drop k i g best count log = .ok (g', log')) :
    log <+: log' ∧ ∃ best' count' u', SInv E n mp prior g' best' count' log' u' := by
  induction k generalizing i g best count log u with
  | zero =>
    simp only [hillLoop, Except.ok.injEq, Prod.mk.injEq] at h
    obtain ⟨rfl, rfl⟩ := h
    exact ⟨List.prefix_rfl, _, _, _, hI⟩
  | succ k ih =>
    rw [hillLoop] at h
    cases hc : choice others (pick i) with
    | error e => rw [hc] at h; simp at h
    | ok p =>
      rw [hc] at h
      simp only [Except.bind_ok'] at h
      obtain ⟨o1, o2, o3⟩ := ho p (choice_mem hc)
      cases ht : E.tryMove n mp g best p (drop i) with
      | error e => rw [ht] at h; simp at h
      | ok out =>
        obtain ⟨k1, u', k2⟩ := SInv.step hE hI hn o1 o2 o3 ht
        obtain ⟨g1, imp, s⟩ := out
        rw [ht] at h
        simp only [Except.bind_ok'] at h
        by_cases hout : outOfPatience patience (if imp = true then 0 else count + 1) = true
        · rw [if_pos hout] at h
          simp only [pure, Except.pure, Except.ok.injEq, Prod.mk.injEq] at h
          obtain ⟨rfl, rfl⟩ := h
          exact ⟨List.prefix_append _ _, _, _, _, k2⟩
        · rw [if_neg hout] at h
          obtain ⟨h1, h2⟩ := ih _ _ _ _ _ _ k2 h
          exact ⟨(List.prefix_append _ _).trans h1, h2⟩

/-- All scores so far: at no point was the patience `m` exhausted. -/
def Patient (m : Nat) (log : List S) : Prop := ∀ l, l <+: log → l ≠ [] → ∃ c, c ≤ m ∧ Stalled l c

theorem prefix_append_singleton {α : Type} {l log : List α} {x : α} (h : l <+: log ++ [x]) (hne : l ≠ log ++ [x]) : l <+: log := by
  rcases List.prefix_concat_iff.1 h with h | h
  · exact absurd h hne
  · exact h

theorem hillLoop_limits {prior others : List Label} {patience : Option ℤ} {pick drop : Nat → Nat} (hE : SearchReady E)
    (hn : n ∈ E.struct.labels) (ho : ∀ p ∈ others, p ∈ E.struct.labels ∧ p ≠ n ∧ p ∉ prior)
    (k i : Nat) (g : NetworkGraph) (best : S) (count : Nat) (log : List S) (u : List Label)
    (hI : SInv E n mp prior g best count log u) {g' : NetworkGraph} {log' : List S}
    (h : E.hillLoop n others mp patience pick drop k i g best count log = .ok (g', log')) :
    log'.length ≤ log.length + k ∧ (patience = none → log'.length = log.length + k) ∧
    ∀ m : Nat, patience = some (m : ℤ) → Patient m log → count ≤ m →
      (log'.length = log.length + k ∨ Stalled log' (m + 1)) ∧ ∀ l, l <+: log' → l ≠ log' → l ≠ [] → ∃ c, c ≤ m ∧ Stalled l c := by
  induction k generalizing i g best count log u with
  | zero =>
    simp only [hillLoop, Except.ok.injEq, Prod.mk.injEq] at h
    obtain ⟨rfl, rfl⟩ := h
    exact ⟨le_rfl, fun _ => rfl, fun m _ hP _ => ⟨Or.inl rfl, fun l h1 _ h3 => hP l h1 h3⟩⟩
  | succ k ih =>
    rw [hillLoop] at h
    cases hc : choice others (pick i) with
    | error e => rw [hc] at h; simp at h
    | ok p =>
      rw [hc] at h
      simp only [Except.bind_ok'] at h
      obtain ⟨o1, o2, o3⟩ := ho p (choice_mem hc)
      cases ht : E.tryMove n mp g best p (drop i) with
      | error e => rw [ht] at h; simp at h
      | ok out =>
        obtain ⟨k1, u', k2⟩ := SInv.step hE hI hn o1 o2 o3 ht
        obtain ⟨g1, imp, s⟩ := out
        rw [ht] at h
        simp only [Except.bind_ok'] at h
        simp only at k2
        by_cases hout : outOfPatience patience (if imp = true then 0 else count + 1) = true
        · rw [if_pos hout] at h
          simp only [pure, Except.pure, Except.ok.injEq, Prod.mk.injEq] at h
          obtain ⟨rfl, rfl⟩ := h
          refine ⟨by simp, fun hp => ?_, fun m hm hP hcm => ⟨Or.inr ?_, fun l h1 h2 h3 => hP l (prefix_append_singleton h1 h2) h3⟩⟩
          · subst hp; simp [outOfPatience] at hout
          · have hst := k2.stalled
            subst hm
            simp only [outOfPatience, decide_eq_true_eq] at hout
            cases imp with
            | true => simp at hout; omega
            | false =>
              simp only [Bool.false_eq_true, if_false] at hout hst
              have : count + 1 = m + 1 := by omega
              rwa [this] at hst
        · rw [if_neg hout] at h
          obtain ⟨h1, h2, h3⟩ := ih _ _ _ _ _ _ k2 h
          simp only [List.length_append, List.length_singleton] at h1 h2 h3
          refine ⟨by omega, fun hp => by rw [h2 hp]; omega, fun m hm hP hcm => ?_⟩
          have hcount : (if imp = true then 0 else count + 1) ≤ m := by
            rw [hm] at hout
            simp only [outOfPatience, Bool.not_eq_true, decide_eq_false_iff_not, not_lt] at hout
            exact_mod_cast hout
          obtain ⟨h4, h5⟩ := h3 m hm (fun l l1 l2 => by
            by_cases hl : l = log ++ [s]
            · subst hl; exact ⟨_, hcount, k2.stalled⟩
            · exact hP l (prefix_append_singleton l1 hl) l2) hcount
          refine ⟨?_, h5⟩
          rcases h4 with h4 | h4
          · left; omega
          · right; exact h4

theorem hillLoop_ok {prior others : List Label} {patience : Option ℤ} {pick drop : Nat → Nat} (hE : SearchReady E)
    (hn : n ∈ E.struct.labels) (ho : ∀ p ∈ others, p ∈ E.struct.labels ∧ p ≠ n ∧ p ∉ prior) (hs : Scorable E n)
    (hmp : ∀ k, mp = some k → 1 ≤ k) (hne : others ≠ [])
    (k i : Nat) (g : NetworkGraph) (best : S) (count : Nat) (log : List S) (u : List Label)
    (hI : SInv E n mp prior g best count log u) : ∃ out, E.hillLoop n others mp patience pick drop k i g best count log = .ok out := by
  induction k generalizing i g best count log u with
  | zero => exact ⟨_, rfl⟩
  | succ k ih =>
    rw [hillLoop]
    obtain ⟨p, hp, hc⟩ := choice_ok hne (pick i)
    obtain ⟨o1, o2, o3⟩ := ho p hp
    obtain ⟨out, ht⟩ := tryMove_ok (mp := mp) hE hI.graph hI.nodup hI.key hn o1 hs hmp best (drop i)
    obtain ⟨k1, u', k2⟩ := SInv.step hE hI hn o1 o2 o3 ht
    obtain ⟨g1, imp, s⟩ := out
    rw [hc]
    simp only [Except.bind_ok', ht]
    by_cases hout : outOfPatience patience (if imp = true then 0 else count + 1) = true
    · rw [if_pos hout]; exact ⟨_, rfl⟩
    · rw [if_neg hout]; exact ih _ _ _ _ _ _ k2

end SearchEnv
end PyCTBN
