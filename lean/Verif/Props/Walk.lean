import Verif.Props.TabuQueue
import Mathlib.Data.Finset.Powerset

/-! The searches as walks over parent sets (C127), and which of them end in local optima (C128, C129). -/

namespace PyCTBN
open Spec SearchEnv

namespace Spec

/-- The change of the parent set `U` that candidate `p` stands for: removal of a parent, addition, or, at the limit of
`max_parents`, exchange for some parent. -/
inductive Move (mp : Option ℤ) (U : Finset Label) (p : Label) : Finset Label → Prop
  | remove : p ∈ U → Move mp U p (U.erase p)
  | add : p ∉ U → (∀ k, mp = some k → (U.card : ℤ) < k) → Move mp U p (insert p U)
  | swap (q : Label) (k : ℤ) : p ∉ U → mp = some k → k ≤ U.card → q ∈ U → Move mp U p (insert p (U.erase q))

/-- A greedy walk from `U₀`: the candidates tried with the scores they gave, where it ends, and for how many trials it has not
moved.  A change is made exactly if it scores strictly better than the present parents. -/
inductive Walk {S : Type} [LinearOrder S] (f : Finset Label → Py S) (mp : Option ℤ) (U₀ : Finset Label) :
    List (Label × S) → Finset Label → Nat → Prop
  | start : Walk f mp U₀ [] U₀ 0
  | better {l : List (Label × S)} {W V : Finset Label} {c : Nat} {p : Label} {b s : S} : Walk f mp U₀ l W c → Move mp W p V →
      f W = .ok b → f V = .ok s → b < s → Walk f mp U₀ (l ++ [(p, s)]) V 0
  | worse {l : List (Label × S)} {W V : Finset Label} {c : Nat} {p : Label} {b s : S} : Walk f mp U₀ l W c → Move mp W p V →
      f W = .ok b → f V = .ok s → s ≤ b → Walk f mp U₀ (l ++ [(p, s)]) W (c + 1)

/-- No single candidate improves `P`: removing a candidate does not, nor adding one as far as `max_parents` permits; at the limit,
not its exchange for at least one of the parents. -/
structure LocalOptimum {S : Type} [LinearOrder S] (f : Finset Label → Py S) (mp : Option ℤ) (C P : Finset Label) (b : S) : Prop where
  score : f P = .ok b
  remove : ∀ p ∈ C, p ∈ P → ∃ s, f (P.erase p) = .ok s ∧ s ≤ b
  add : ∀ p ∈ C, p ∉ P → (∀ k, mp = some k → (P.card : ℤ) < k) → ∃ s, f (insert p P) = .ok s ∧ s ≤ b
  swap : ∀ p ∈ C, p ∉ P → ∀ k, mp = some k → k ≤ P.card → ∃ q ∈ P, ∃ s, f (insert p (P.erase q)) = .ok s ∧ s ≤ b

end Spec

section
variable {S : Type} [LinearOrder S] {f : Finset Label → Py S} {mp : Option ℤ} {U₀ : Finset Label}

/-- The last `c` trials of a walk were made from where it ends, without success. -/
theorem Spec.Walk.last {l : List (Label × S)} {W : Finset Label} {c : Nat} (h : Walk f mp U₀ l W c) :
    c ≤ l.length ∧ ∀ x ∈ l.drop (l.length - c), ∃ V b, Move mp W x.1 V ∧ f W = .ok b ∧ f V = .ok x.2 ∧ x.2 ≤ b := by
  induction h with
  | start => simp
  | better _ _ _ _ _ _ => exact ⟨Nat.zero_le _, fun x hx => by simp at hx⟩
  | @worse l W V c p b s hw hm hb hs hle ih =>
    obtain ⟨i1, i2⟩ := ih
    refine ⟨by simp; omega, fun x hx => ?_⟩
    rw [List.length_append, List.length_singleton, show l.length + 1 - (c + 1) = l.length - c by omega,
      List.drop_append_of_le_length (by omega)] at hx
    rcases List.mem_append.1 hx with hx | hx
    · exact i2 x hx
    · rw [List.mem_singleton.1 hx]; exact ⟨V, b, hm, hb, hs, hle⟩

theorem Spec.Walk.optimum {l : List (Label × S)} {W : Finset Label} {c : Nat} (h : Walk f mp U₀ l W c) {C : Finset Label}
    (hC : ∀ p ∈ C, p ∈ (l.drop (l.length - c)).map Prod.fst) {b : S} (hb : f W = .ok b) : LocalOptimum f mp C W b := by
  have key : ∀ p ∈ C, ∃ V s, Move mp W p V ∧ f V = .ok s ∧ s ≤ b := by
    intro p hp
    obtain ⟨x, hx, rfl⟩ := List.mem_map.1 (hC p hp)
    obtain ⟨V, b', h1, h2, h3, h4⟩ := h.last.2 x hx
    rw [hb] at h2
    injection h2 with h2
    exact ⟨V, x.2, h1, h3, h2 ▸ h4⟩
  refine ⟨hb, fun p hp hpW => ?_, fun p hp hpW hk => ?_, fun p hp hpW k hk hle => ?_⟩
  · obtain ⟨V, s, h1, h2, h3⟩ := key p hp
    cases h1 with
    | remove _ => exact ⟨s, h2, h3⟩
    | add h _ => exact absurd hpW h
    | swap q k h _ _ _ => exact absurd hpW h
  · obtain ⟨V, s, h1, h2, h3⟩ := key p hp
    cases h1 with
    | remove h => exact absurd h hpW
    | add _ _ => exact ⟨s, h2, h3⟩
    | swap q k _ e h _ => have := hk k e; omega
  · obtain ⟨V, s, h1, h2, h3⟩ := key p hp
    cases h1 with
    | remove h => exact absurd h hpW
    | add _ h => have := h k hk; omega
    | swap q k _ e h hq => exact ⟨q, hq, s, h2, h3⟩

end

namespace SearchEnv
variable {S : Type} [LinearOrder S] {E : SearchEnv S} {n : Label} {mp : Option ℤ} {f : Finset Label → Py S}

theorem Proposal.move {u u' : List Label} {p : Label} {d : Option Label} (h : Proposal mp u p u' d) (hu : u.Nodup) :
    Move mp u.toFinset p u'.toFinset := by
  cases h with
  | remove h =>
    have : (u.erase p).toFinset = u.toFinset.erase p := by
      ext x; simp [hu.mem_erase_iff]
    rw [this]; exact .remove (List.mem_toFinset.2 h)
  | add h hk =>
    rw [List.toFinset_cons]
    exact .add (by simpa using h) (fun k e => by rw [List.toFinset_card_of_nodup hu]; exact hk k e)
  | swap q k h1 h2 h3 h4 =>
    have : (p :: u.erase q).toFinset = insert p (u.toFinset.erase q) := by
      ext x; simp [hu.mem_erase_iff]
    rw [this]
    exact .swap q k (by simpa using h1) h2 (by rw [List.toFinset_card_of_nodup hu]; exact h3) (List.mem_toFinset.2 h4)

theorem walk_step (hE : SearchReady E) (hf : ScoreOf E n f) {prior : List Label} {g : NetworkGraph} {best : S} {count : Nat}
    {lg : List S} {u : List Label} (hI : SInv E n mp prior g best count lg u) (hn : n ∈ E.struct.labels) {p : Label}
    (hp : p ∈ E.struct.labels) {r : Nat} {g1 : NetworkGraph} {imp : Bool} {s : S}
    (ht : E.tryMove n mp g best p r = .ok (g1, imp, s)) {U₀ : Finset Label} {l : List (Label × S)}
    (hw : Walk f mp U₀ l (parentsIn g.edges n) count) :
    Walk f mp U₀ (l ++ [(p, s)]) (parentsIn g1.edges n) (if imp then 0 else count + 1) := by
  obtain ⟨u', d, hP, k1, k2, k3, k4⟩ := tryMove_spec hE hI.graph hI.nodup hI.key hn hp ht
  simp only at k1 k2 k3 k4
  have hm := Proposal.move hP hI.nodup
  have h1 := hI.score f hf
  have h2 := k4 f hf
  rw [hI.graph.parentsIn_eq] at hw
  rw [k2.parentsIn_eq]
  by_cases hb : best < s
  · have : imp = true := by rw [k1]; simpa using hb
    subst this
    exact .better hw hm h1 h2 hb
  · have : imp = false := by rw [k1]; simpa using hb
    subst this
    exact .worse hw hm h1 h2 (not_lt.1 hb)

theorem tabuLoop_walk {prior others : List Label} {patience : Option ℤ} {length duration : ℤ} {pick drop : Nat → Nat}
    (hE : SearchReady E) (hf : ScoreOf E n f) (hn : n ∈ E.struct.labels)
    (ho : ∀ p ∈ others, p ∈ E.struct.labels ∧ p ≠ n ∧ p ∉ prior) (start : S)
    (k i : Nat) (g : NetworkGraph) (best : S) (count : Nat) (q t : List Label) (c : Nat) (log : List (TabuStep S)) (u : List Label)
    (hI : SInv E n mp prior g best count (start :: log.map TabuStep.score) u)
    (hQ : QInv others (log.map TabuStep.cand) q t length) (hL : LogOk others length log) {U₀ : Finset Label}
    (hw : Walk f mp U₀ (log.map (fun st => (st.cand, st.score))) (parentsIn g.edges n) count)
    {g' : NetworkGraph} {log' : List (TabuStep S)}
    (h : E.tabuLoop n others mp patience length duration pick drop k i g best count q t c log = .ok (g', log')) :
    ∃ c', Walk f mp U₀ (log'.map (fun st => (st.cand, st.score))) (parentsIn g'.edges n) c' ∧
      (log'.length = log.length + k ∨ outOfPatience patience c' = true) := by
  induction k generalizing i g best count q t c log u with
  | zero =>
    simp only [tabuLoop, Except.ok.injEq, Prod.mk.injEq] at h
    obtain ⟨rfl, rfl⟩ := h
    exact ⟨count, hw, Or.inl rfl⟩
  | succ k ih =>
    rw [tabuLoop] at h
    cases h1 : tabuPick others q t (pick i) with
    | error e => rw [h1] at h; simp at h
    | ok o1 =>
    obtain ⟨p, q1, t1⟩ := o1
    rw [h1] at h
    simp only [Except.bind_ok'] at h
    cases h2 : E.tryMove n mp g best p (drop i) with
    | error e => rw [h2] at h; simp at h
    | ok o2 =>
    obtain ⟨g1, imp, s⟩ := o2
    rw [h2] at h
    simp only [Except.bind_ok'] at h
    cases h3 : tabuUpdate length duration q1 t1 p c with
    | error e => rw [h3] at h; simp at h
    | ok o3 =>
    obtain ⟨q2, t2, c'⟩ := o3
    rw [h3] at h
    simp only [Except.bind_ok'] at h
    obtain ⟨⟨u', k2⟩, kq, kl, -, -⟩ := tabuIter_spec hE hn ho hI hQ hL h1 h2 h3
    obtain ⟨p1, -⟩ := tabuPick_spec hQ h1
    have hw' := walk_step hE hf hI hn (ho p p1).1 h2 hw
    have hmap : (log ++ [(⟨p, q, s⟩ : TabuStep S)]).map (fun st => (st.cand, st.score)) = log.map (fun st => (st.cand, st.score)) ++ [(p, s)] := by
      simp
    by_cases hout : outOfPatience patience (if imp = true then 0 else count + 1) = true
    · rw [if_pos hout] at h
      simp only [pure, Except.pure, Except.ok.injEq, Prod.mk.injEq] at h
      obtain ⟨rfl, rfl⟩ := h
      exact ⟨_, by rw [hmap]; exact hw', Or.inr hout⟩
    · rw [if_neg hout] at h
      obtain ⟨c', j1, j2⟩ := ih _ _ _ _ _ _ _ _ _ k2 kq kl (by rw [hmap]; exact hw') h
      refine ⟨c', j1, j2.imp (fun e => ?_) id⟩
      rw [e]; simp; omega

theorem hillLoop_walk {prior others : List Label} {patience : Option ℤ} {pick drop : Nat → Nat}
    (hE : SearchReady E) (hf : ScoreOf E n f) (hn : n ∈ E.struct.labels)
    (ho : ∀ p ∈ others, p ∈ E.struct.labels ∧ p ≠ n ∧ p ∉ prior) (start : S)
    (k i : Nat) (g : NetworkGraph) (best : S) (count : Nat) (l : List (Label × S)) (u : List Label)
    (hI : SInv E n mp prior g best count (start :: l.map Prod.snd) u) {U₀ : Finset Label}
    (hw : Walk f mp U₀ l (parentsIn g.edges n) count) (hi : i = l.length)
    (hl : ∀ j (hj : j < l.length), choice others (pick j) = .ok l[j].1)
    {g' : NetworkGraph} {log' : List S}
    (h : E.hillLoop n others mp patience pick drop k i g best count (start :: l.map Prod.snd) = .ok (g', log')) :
    ∃ l' c', log' = start :: l'.map Prod.snd ∧ (∀ j (hj : j < l'.length), choice others (pick j) = .ok l'[j].1) ∧ Walk f mp U₀ l' (parentsIn g'.edges n) c' ∧
      (l'.length = l.length + k ∨ outOfPatience patience c' = true) := by
  induction k generalizing i g best count l u with
  | zero =>
    simp only [hillLoop, Except.ok.injEq, Prod.mk.injEq] at h
    obtain ⟨rfl, rfl⟩ := h
    exact ⟨l, count, rfl, hl, hw, Or.inl rfl⟩
  | succ k ih =>
    rw [hillLoop] at h
    cases hc : choice others (pick i) with
    | error e => rw [hc] at h; simp at h
    | ok p =>
      rw [hc] at h
      simp only [Except.bind_ok'] at h
      have hpo := choice_mem hc
      obtain ⟨o1, o2, o3⟩ := ho p hpo
      cases ht : E.tryMove n mp g best p (drop i) with
      | error e => rw [ht] at h; simp at h
      | ok out =>
        obtain ⟨k1, u', k2⟩ := SInv.step hE hI hn o1 o2 o3 ht
        obtain ⟨g1, imp, s⟩ := out
        rw [ht] at h
        simp only [Except.bind_ok'] at h
        have hw' := walk_step hE hf hI hn o1 ht hw
        have hl' : ∀ j (hj : j < (l ++ [(p, s)]).length), choice others (pick j) = .ok (l ++ [(p, s)])[j].1 := by
          intro j hj
          by_cases hlt : j < l.length
          · rw [List.getElem_append_left hlt]; exact hl j hlt
          · have : j = l.length := by simp at hj; omega
            subst this
            have hcc : choice others (pick l.length) = .ok p := by rw [← hi]; exact hc
            rw [hcc]; simp
        have hmap : start :: l.map Prod.snd ++ [s] = start :: (l ++ [(p, s)]).map Prod.snd := by simp
        by_cases hout : outOfPatience patience (if imp = true then 0 else count + 1) = true
        · rw [if_pos hout] at h
          simp only [pure, Except.pure, Except.ok.injEq, Prod.mk.injEq] at h
          obtain ⟨rfl, rfl⟩ := h
          exact ⟨_, _, hmap, hl', hw', Or.inr hout⟩
        · rw [if_neg hout] at h
          simp only at k2
          rw [hmap] at h k2
          obtain ⟨l', c', j1, j2, j3, j4⟩ := ih _ _ _ _ _ _ k2 hw' (by simp [hi]) hl' h
          refine ⟨l', c', j1, j2, j3, j4.imp (fun e => ?_) id⟩
          rw [e]; simp; omega

end SearchEnv

section
variable {S : Type} [LinearOrder S] {E : SearchEnv S} {known : List Edge} {n : Label} {mp patience tl td : Option ℤ}
  {iterations : Nat} {pick drop : Nat → Nat} {es : List Edge} {start : S} {steps : List (TabuStep S)} {log : List S}
  {f : Finset Label → Py S}

/-- C127 for tabu search: it is a greedy walk from the known parents, trying the candidates of its log; it ends after `iterations`
trials or when the number of trials since the last move exceeds the patience. -/
theorem tabu_walk (hE : SearchReady E) (hK : KnownEdges E known) (hf : ScoreOf E n f)
    (h : E.tabu n mp iterations patience tl td pick drop = .ok (es, start, steps)) :
    f (parentsIn known n) = .ok start ∧
    ∃ c, Walk f mp (parentsIn known n) (steps.map (fun st => (st.cand, st.score))) (parentsIn es n) c ∧
      (∀ st ∈ steps, st.cand ∈ candidates E known n) ∧
      (steps.length = iterations ∨ ∃ m, patience = some m ∧ m < c) := by
  have hcand : ∀ st ∈ steps, st.cand ∈ candidates E known n := by
    intro st hst
    obtain ⟨i, hi, rfl⟩ := List.getElem_of_mem hst
    exact (tabu_discipline hE hK h i hi).1
  obtain ⟨hn, prior, g0, h1, h2, h3, g, h4, rfl⟩ := tabu_run hE hK h
  have hk := parentsIn_known h2
  obtain ⟨c, k1, k2⟩ := tabuLoop_walk (U₀ := prior.toFinset) hE hf hn (fun p hp => mem_otherNodes.1 hp) start _ _ _ _ _ _ _ _ _ _
    (by simpa using h3) (QInv.empty _ _) (fun i hi => by simp at hi) (by rw [h3.graph.parentsIn_eq]; exact .start) h4
  rw [hk]
  refine ⟨h3.score f hf, c, k1, hcand, k2.imp (fun e => by simpa using e) (fun e => ?_)⟩
  cases patience with
  | none => simp [outOfPatience] at e
  | some m => exact ⟨m, rfl, by simpa [outOfPatience] using e⟩

/-- C127 for hill climbing: likewise, for some list of candidates drawn. -/
theorem hill_walk (hE : SearchReady E) (hK : KnownEdges E known) (hf : ScoreOf E n f)
    (h : E.hill n mp iterations patience pick drop = .ok (es, log)) :
    ∃ l c s0, log = s0 :: l.map Prod.snd ∧ f (parentsIn known n) = .ok s0 ∧
      Walk f mp (parentsIn known n) l (parentsIn es n) c ∧ (∀ x ∈ l, x.1 ∈ candidates E known n) ∧
      (∀ j (hj : j < l.length), (E.struct.labels.filter (fun x => decide (x ∈ candidates E known n)))[
        pick j % (candidates E known n).card]? = some l[j].1) ∧
      (l.length = iterations ∨ ∃ m, patience = some m ∧ m < c) := by
  obtain ⟨hn, prior, s0, g0, h1, h2, h3, g, h4, rfl⟩ := hill_run hE hK h
  obtain ⟨l, c, j1, j2, j3, j4⟩ := hillLoop_walk (U₀ := prior.toFinset) (l := []) hE hf hn (fun p hp => mem_otherNodes.1 hp) s0 _ _ _ _ _ _
    (by simpa using h3) (by rw [h3.graph.parentsIn_eq]; exact .start) rfl (by simp) h4
  refine ⟨l, c, s0, j1, ?_⟩
  have hoth : E.struct.labels.filter (fun x => decide (x ∈ candidates E known n)) = E.otherNodes n prior := by
    unfold otherNodes
    apply List.filter_congr
    intro x hx
    simp only [mem_candidates h2, mem_otherNodes, hx, true_and]
  rw [hoth, candidates_card hE h2, parentsIn_known h2]
  refine ⟨h3.score f hf, j3, fun x hx => ?_, fun j hj => ?_, j4.imp (fun e => by simpa using e) (fun e => ?_)⟩
  · obtain ⟨j, hj, rfl⟩ := List.getElem_of_mem hx
    exact (mem_candidates h2 _).2 (choice_mem (j2 j hj))
  · have hc := j2 j hj
    unfold choice at hc
    split at hc
    · cases hc
    · unfold pyGet at hc
      split at hc
      · rename_i v hv
        injection hc with hc
        rw [hv, hc]
      · cases hc
  · cases patience with
    | none => simp [outOfPatience] at e
    | some m => exact ⟨m, rfl, by simpa [outOfPatience] using e⟩

end

section
variable {S : Type} [LinearOrder S] {f : Finset Label → Py S} {U₀ : Finset Label}

theorem Spec.Move.none_eq {U V V' : Finset Label} {p : Label} (h : Move none U p V) (h' : Move none U p V') : V = V' := by
  cases h with
  | remove h => cases h' with
    | remove _ => rfl
    | add h2 _ => exact absurd h h2
    | swap _ _ _ e _ _ => cases e
  | add h _ => cases h' with
    | remove h2 => exact absurd h2 h
    | add _ _ => rfl
    | swap _ _ _ e _ _ => cases e
  | swap _ _ _ e _ _ => cases e

/-- Without a limit on the parents, a walk that tries every candidate of `C` in any `N` successive trials and has not stood still
for `N` trials has made at most `N - 1` trials per parent set it visited. -/
theorem Spec.Walk.visits {C : Finset Label} {N : Nat} {L : List (Label × S)} (hLC : ∀ x ∈ L, x.1 ∈ C)
    (hwin : ∀ i, i + N ≤ L.length → ∀ p ∈ C, p ∈ ((L.map Prod.fst).drop i).take N) (h0 : ∃ x, f U₀ = .ok x)
    {l : List (Label × S)} {W : Finset Label} {c : Nat} (h : Walk f none U₀ l W c) (hl : l <+: L) :
    ∃ vis : Finset (Finset Label), W ∈ vis ∧
      (∀ X ∈ vis, X \ C = U₀ \ C ∧ ∃ x, f X = .ok x ∧ ∀ b, f W = .ok b → x ≤ b) ∧
      (N ≤ c ∨ l.length ≤ (vis.card - 1) * N + c) := by
  induction h with
  | start =>
    obtain ⟨x, hx⟩ := h0
    refine ⟨{U₀}, by simp, fun X hX => ?_, Or.inr (by simp)⟩
    rw [Finset.mem_singleton.1 hX]
    exact ⟨rfl, x, hx, fun b hb => by rw [hx] at hb; injection hb with hb; exact hb.le⟩
  | @worse l W V c p b s hw hm hb hs hle ih =>
    obtain ⟨vis, v1, v2, v3⟩ := ih ((List.prefix_append _ _).trans hl)
    refine ⟨vis, v1, v2, ?_⟩
    rcases v3 with v3 | v3
    · left; omega
    · right; simp; omega
  | @better l W V c p b s hw hm hb hs hlt ih =>
    have hl' : l <+: L := (List.prefix_append _ _).trans hl
    obtain ⟨vis, v1, v2, v3⟩ := ih hl'
    have hpC : p ∈ C := hLC (p, s) (hl.subset (by simp))
    -- the walk had not stood still for `N` trials
    have hc : ¬ N ≤ c := by
      intro hNc
      obtain ⟨q1, q2⟩ := hw.last
      have hlen := hl'.length_le
      have hin := hwin (l.length - N) (by omega) p hpC
      have hpre : ((L.map Prod.fst).drop (l.length - N)).take N = (l.drop (l.length - N)).map Prod.fst := by
        obtain ⟨t, ht⟩ := hl'
        rw [← ht, List.map_append, List.drop_append_of_le_length (by simp), List.take_append_of_le_length (by simp; omega),
          List.take_of_length_le (by simp; omega), List.map_drop]
      rw [hpre] at hin
      obtain ⟨x, hx, hxp⟩ := List.mem_map.1 hin
      have hx' : x ∈ l.drop (l.length - c) := by
        have : l.drop (l.length - N) = (l.drop (l.length - c)).drop (c - N) := by
          rw [List.drop_drop]; congr 1; omega
        rw [this] at hx
        exact List.mem_of_mem_drop hx
      obtain ⟨V', b', r1, r2, r3, r4⟩ := q2 x hx'
      rw [hxp] at r1
      rw [Move.none_eq hm r1, r3] at hs
      rw [hb] at r2
      injection hs with hs; injection r2 with r2
      subst hs; subst r2
      exact absurd r4 (not_le.2 hlt)
    have hVW : V \ C = W \ C := by
      cases hm with
      | remove _ => ext x; simp only [Finset.mem_sdiff, Finset.mem_erase]; constructor
                    · exact fun h => ⟨h.1.2, h.2⟩
                    · exact fun h => ⟨⟨fun e => h.2 (e ▸ hpC), h.1⟩, h.2⟩
      | add _ _ => ext x; simp only [Finset.mem_sdiff, Finset.mem_insert]; constructor
                   · exact fun h => ⟨h.1.resolve_left (fun e => h.2 (e ▸ hpC)), h.2⟩
                   · exact fun h => ⟨Or.inr h.1, h.2⟩
      | swap _ _ _ e _ _ => cases e
    have hVn : V ∉ vis := by
      intro hV
      obtain ⟨-, x, hx, hxb⟩ := v2 V hV
      rw [hs] at hx
      injection hx with hx
      exact absurd (hx ▸ hxb b hb) (not_le.2 hlt)
    refine ⟨insert V vis, Finset.mem_insert_self _ _, fun X hX => ?_, Or.inr ?_⟩
    · rcases Finset.mem_insert.1 hX with rfl | hX
      · exact ⟨hVW.trans (v2 W v1).1, s, hs, fun b' hb' => by rw [hs] at hb'; injection hb' with hb'; exact hb'.le⟩
      · obtain ⟨w1, x, w2, w3⟩ := v2 X hX
        refine ⟨w1, x, w2, fun b' hb' => ?_⟩
        rw [hs] at hb'
        injection hb' with hb'
        exact (w3 b hb).trans (hb' ▸ hlt.le)
    · rw [Finset.card_insert_of_notMem hVn, List.length_append, List.length_singleton, Nat.add_sub_cancel]
      have hpos : 0 < vis.card := Finset.card_pos.2 ⟨W, v1⟩
      have h3 : l.length ≤ (vis.card - 1) * N + c := v3.resolve_left hc
      have : vis.card * N = (vis.card - 1) * N + N := by
        obtain ⟨m, hm⟩ := Nat.exists_eq_succ_of_ne_zero hpos.ne'
        rw [hm]; simp [Nat.succ_mul]
      omega

theorem visits_card {C U₀ : Finset Label} {vis : Finset (Finset Label)} (h : ∀ X ∈ vis, X \ C = U₀ \ C) : vis.card ≤ 2 ^ C.card := by
  rw [← Finset.card_powerset]
  apply Finset.card_le_card_of_injOn (fun X => X ∩ C)
  · intro X _; simp
  · intro X hX Y hY hXY
    simp only at hXY
    rw [← Finset.sdiff_union_inter X C, ← Finset.sdiff_union_inter Y C, hXY, h X hX, h Y hY]

end

section
variable {S : Type} [LinearOrder S] {E : SearchEnv S} {known : List Edge} {n : Label} {mp patience tl td : Option ℤ}
  {iterations : Nat} {pick drop : Nat → Nat} {es : List Edge} {start : S} {steps : List (TabuStep S)} {log : List S}
  {f : Finset Label → Py S}

/-- C128.  With `tabu_length` and `tabu_rules_duration` unset or at least the number `N` of candidates, tabu search ends in a local
optimum if its patience, at least `N - 1`, ran out; and, without a limit on the parents, also whenever it made `N · 2^N` iterations
or more. -/
theorem tabu_local_optimum (hE : SearchReady E) (hK : KnownEdges E known) (hf : ScoreOf E n f)
    {N : Nat} (hN : (candidates E known n).card = N)
    (htl : ∀ k, tl = some k → (N : ℤ) ≤ k) (htd : ∀ k, td = some k → (N : ℤ) ≤ |k|)
    (h : E.tabu n mp iterations patience tl td pick drop = .ok (es, start, steps))
    (hstop : (∃ m, patience = some m ∧ (N : ℤ) ≤ m + 1 ∧ steps.length < iterations) ∨ (mp = none ∧ N * 2 ^ N ≤ steps.length)) :
    ∃ b, LocalOptimum f mp (candidates E known n) (parentsIn es n) b := by
  obtain ⟨b, hb, -⟩ := tabu_returns_best hE hK hf h
  obtain ⟨h0, c, hw, hcand, hend⟩ := tabu_walk hE hK hf h
  obtain ⟨hr, -⟩ := tabu_round_robin hE hK hN htl htd h
  have hcl := hw.last.1
  simp only [List.length_map] at hcl
  have hmm : (steps.map (fun st => (st.cand, st.score))).map Prod.fst = steps.map TabuStep.cand := by simp
  have hwin : ∀ i, i + N ≤ (steps.map (fun st => (st.cand, st.score))).length → ∀ p ∈ candidates E known n,
      p ∈ (((steps.map (fun st => (st.cand, st.score))).map Prod.fst).drop i).take N := by
    intro i hi p hp
    rw [List.length_map] at hi
    rw [hmm]
    rw [← (hr i hi).1, List.mem_toFinset] at hp
    exact hp
  -- a full round of failures
  have hc : N ≤ c := by
    rcases hstop with ⟨m, h1, h2, h3⟩ | ⟨rfl, h2⟩
    · rcases hend with e | ⟨m', e1, e2⟩
      · omega
      · rw [h1] at e1; injection e1 with e1; omega
    · by_contra hcN
      obtain ⟨vis, v1, v2, v3⟩ := hw.visits (C := candidates E known n) (N := N)
        (fun x hx => by obtain ⟨st, hst, rfl⟩ := List.mem_map.1 hx; exact hcand st hst) hwin ⟨_, h0⟩ List.prefix_rfl
      have h3 := v3.resolve_left hcN
      rw [List.length_map] at h3
      have hcard := visits_card (fun X hX => (v2 X hX).1)
      rw [hN] at hcard
      have hpos : 0 < vis.card := Finset.card_pos.2 ⟨_, v1⟩
      have e1 : vis.card * N = (vis.card - 1) * N + N := by
        obtain ⟨m, hm⟩ := Nat.exists_eq_succ_of_ne_zero hpos.ne'
        rw [hm]; simp [Nat.succ_mul]
      have e2 : vis.card * N ≤ N * 2 ^ N := by rw [mul_comm N]; exact Nat.mul_le_mul_right N hcard
      omega
  refine ⟨b, hw.optimum (fun p hp => ?_) hb⟩
  have := hwin (steps.length - N) (by simp; omega) p hp
  rw [List.map_drop]
  have hsub := List.mem_of_mem_take this
  rw [List.length_map]
  have e : ((steps.map (fun st => (st.cand, st.score))).map Prod.fst).drop (steps.length - N) =
      (((steps.map (fun st => (st.cand, st.score))).map Prod.fst).drop (steps.length - c)).drop (c - N) := by
    rw [List.drop_drop]; congr 1; omega
  rw [e] at hsub
  exact List.mem_of_mem_drop hsub

/-- C129 (partial).  Hill climbing ends in a local optimum if every candidate was drawn since the last improvement.  Missing: draws
for which this is not so, which no patience or number of iterations excludes (`hill_misses_optimum`). -/
theorem hill_local_optimum_partial (hE : SearchReady E) (hK : KnownEdges E known) (hf : ScoreOf E n f)
    (h : E.hill n mp iterations patience pick drop = .ok (es, log)) :
    ∃ l c s0 b, log = s0 :: l.map Prod.snd ∧ Walk f mp (parentsIn known n) l (parentsIn es n) c ∧
      ((∀ p ∈ candidates E known n, p ∈ (l.drop (l.length - c)).map Prod.fst) →
        LocalOptimum f mp (candidates E known n) (parentsIn es n) b) := by
  obtain ⟨b, _, hb, -⟩ := hill_returns_best hE hK hf h
  obtain ⟨l, c, s0, h1, -, h3, -⟩ := hill_walk hE hK hf h
  exact ⟨l, c, s0, b, h1, h3, fun hp => h3.optimum hp hb⟩

end

/-- Three candidates for `X`, of which `Z` is the only one that matters. -/
def walkDemo : SearchEnv ℤ where
  struct := tabuDemo.struct
  removable := tabuDemo.removable
  score := scoreBy (fun ps => if "Z" ∈ ps then 1 else 0)

theorem walkDemo_ready : SearchReady walkDemo ∧ KnownEdges walkDemo [] :=
  ⟨⟨⟨by decide, by decide, by decide⟩, rfl⟩, ⟨by decide, by decide +kernel, by decide⟩⟩

theorem walkDemo_score : ScoreOf walkDemo "X" (fun ps => .ok (if "Z" ∈ ps then 1 else 0)) := fun _ _ _ _ => rfl

/-- If the first candidate, `Y`, is drawn every time, hill climbing ends where adding `Z` would improve the score. -/
theorem hill_misses_optimum_of (iterations : Nat) (patience : Option ℤ) {pick : Nat → Nat} (drop : Nat → Nat) (hpick : ∀ j < iterations, pick j % 3 = 0) :
    ∃ es log, walkDemo.hill "X" none iterations patience pick drop = .ok (es, log) ∧
      ¬ ∃ b, LocalOptimum (fun ps => .ok (if "Z" ∈ ps then (1 : ℤ) else 0)) none (candidates walkDemo [] "X") (parentsIn es "X") b := by
  obtain ⟨hE, hK⟩ := walkDemo_ready
  obtain ⟨es, log, h⟩ := hill_returns_partial (iterations := iterations) (patience := patience) (pick := pick) (drop := drop)
    (mp := none) hE hK (n := "X") (by decide) (fun _ _ _ _ => ⟨_, rfl⟩) (by simp) ⟨"Y", by decide⟩
  refine ⟨es, log, h, ?_⟩
  rintro ⟨b, hb⟩
  obtain ⟨l, c, s0, hlog, -, hw, -, hl, -⟩ := hill_walk hE hK walkDemo_score h
  have hlen : l.length ≤ iterations := by
    have := (hill_limits hE hK h).1
    rw [hlog] at this
    simpa using this
  have hY : ∀ x ∈ l, x.1 = "Y" := by
    intro x hx
    obtain ⟨j, hj, rfl⟩ := List.getElem_of_mem hx
    have := hl j hj
    have hlist : (walkDemo.struct.labels.filter (fun x => decide (x ∈ candidates walkDemo [] "X")))[0]? = some "Y" := by decide
    have h3 : (candidates walkDemo [] "X").card = 3 := by decide
    rw [h3, hpick j (by omega), hlist] at this
    exact (Option.some.inj this).symm
  have hstay : ∀ (l : List (Label × ℤ)) W c, Walk (fun ps => .ok (if "Z" ∈ ps then (1 : ℤ) else 0)) none (parentsIn [] "X") l W c →
      (∀ x ∈ l, x.1 = "Y") → "Z" ∉ W := by
    intro l W c hw
    induction hw with
    | start => intro _; decide
    | @worse l W V c p b s _ _ _ _ _ ih => exact fun hx => ih (fun x hx' => hx x (by simp [hx']))
    | @better l W V c p b s _ hm _ _ _ ih =>
      intro hx
      have hW := ih (fun x hx' => hx x (by simp [hx']))
      have hp : p = "Y" := hx (p, s) (by simp)
      subst hp
      cases hm with
      | remove _ => exact fun hz => hW (Finset.mem_of_mem_erase hz)
      | add _ _ => intro hz; rcases Finset.mem_insert.1 hz with e | e
                   · exact absurd e (by decide)
                   · exact hW e
      | swap _ _ _ e _ _ => cases e
  have hZ := hstay l _ c hw hY
  obtain ⟨s, h1, h2⟩ := hb.add "Z" (by decide) hZ (by simp)
  have h3 := hb.score
  simp only [if_neg hZ, Except.ok.injEq] at h3
  simp at h1
  omega

/-- C129 (refuted): whatever the number of iterations and the patience, there are draws (always the first candidate, `Y`) for which
hill climbing ends where adding `Z` would improve the score. -/
theorem hill_misses_optimum (iterations : Nat) (patience : Option ℤ) :
    ∃ es log, walkDemo.hill "X" none iterations patience (fun _ => 0) (fun _ => 0) = .ok (es, log) ∧
      ¬ ∃ b, LocalOptimum (fun ps => .ok (if "Z" ∈ ps then (1 : ℤ) else 0)) none (candidates walkDemo [] "X") (parentsIn es "X") b :=
  hill_misses_optimum_of iterations patience (fun _ => 0) (by simp)

/-- The hypotheses of C128 are met: patience 2 for three candidates, which runs out in iteration 5 of 100. -/
example : (candidates walkDemo [] "X").card = 3 ∧
    ∃ es start steps, walkDemo.tabu "X" none 100 (some 2) none none (fun _ => 0) (fun _ => 0) = .ok (es, start, steps) ∧
      steps.map TabuStep.cand = ["Y", "Z", "W", "Y", "Z"] ∧ es = [("Z", "X")] :=
  ⟨by decide, _, _, _, rfl, by decide +kernel, by decide +kernel⟩

end PyCTBN
