import Verif.Props.Search
import Mathlib.Algebra.Order.Ring.Abs

/-! Tabu search: the exact content of the tabu list (C125) and the order of examination it enforces (C126). -/

namespace PyCTBN
open Spec

/-- The number of candidates on the tabu list when iteration `i` begins, for `N` candidates, `tabu_length = L` and
`tabu_rules_duration = D`: when all candidates are tabu the oldest entry is taken off (and examined), a list that has reached
its length loses its oldest entry, the candidate examined is put on, and every `D`-th iteration takes the oldest entry off. -/
def Spec.tabuCount (N : Nat) (L D : ℤ) : Nat → Nat
  | 0 => 0
  | i + 1 =>
    let a := if tabuCount N L D i = N then tabuCount N L D i - 1 else tabuCount N L D i
    let b := if L ≤ (a : ℤ) then a - 1 else a
    if D ∣ ((i + 1 : Nat) : ℤ) then b else b + 1

namespace SearchEnv
variable {S : Type} [LinearOrder S] {E : SearchEnv S} {n : Label} {mp : Option ℤ}

theorem tabuPick_length {others done q t : List Label} {length : ℤ} (hI : QInv others done q t length) (ho : others.Nodup) {r : Nat}
    {p : Label} {q1 t1 : List Label} (h : tabuPick others q t r = .ok (p, q1, t1)) :
    q1.length = if q.length = others.length then q.length - 1 else q.length := by
  have hsub : q ⊆ others := hI.sub
  have hperm : q.length = others.length ↔ ∀ x ∈ others, x ∈ q := by
    constructor
    · intro hl x hx
      have := (List.subperm_of_subset hI.nodup hsub).perm_of_length_le hl.ge
      exact this.mem_iff.2 hx
    · intro hall
      exact le_antisymm (hI.nodup.subperm hsub).length_le (ho.subperm hall).length_le
  unfold tabuPick at h
  simp only at h
  split at h
  · rename_i hlen
    cases hc : choice (others.filter (fun l => decide (l ∉ t))) r with
    | error e => rw [hc] at h; simp at h
    | ok x =>
      rw [hc] at h
      simp only [Except.bind_ok', pure, Except.pure, Except.ok.injEq, Prod.mk.injEq] at h
      obtain ⟨rfl, rfl, rfl⟩ := h
      rw [if_neg]
      rw [hperm]
      intro hall
      obtain ⟨y, hy⟩ := List.exists_mem_of_length_pos hlen
      rw [List.mem_filter] at hy
      simp only [decide_eq_true_eq] at hy
      exact hy.2 ((hI.same y).2 (hall y hy.1))
  · rename_i hlen
    obtain ⟨h1, -⟩ := tabuPop_spec hI.same hI.nodup h
    have hall : ∀ x ∈ others, x ∈ q := by
      intro x hx
      by_contra hxq
      apply hlen
      apply List.length_pos_of_mem (a := x)
      rw [List.mem_filter]
      exact ⟨hx, by simpa using fun h => hxq ((hI.same x).1 h)⟩
    rw [if_pos (hperm.2 hall), h1]; rfl

theorem tabuUpdate_length {q t : List Label} {length duration : ℤ} {p : Label} {c i : Nat}
    (hsame : ∀ x, x ∈ t ↔ x ∈ q) (hnd : q.Nodup) (hpq : p ∉ q) (hc : duration ∣ (i : ℤ) - c) {q' t' : List Label} {c' : Nat}
    (h : tabuUpdate length duration q t p c = .ok (q', t', c')) :
    (q'.length = if duration ∣ ((i + 1 : Nat) : ℤ) then (if length ≤ (q.length : ℤ) then q.length - 1 else q.length)
      else (if length ≤ (q.length : ℤ) then q.length - 1 else q.length) + 1) ∧
    duration ∣ ((i + 1 : Nat) : ℤ) - c' := by
  unfold tabuUpdate at h
  have hroom : ∃ q1 t1, tabuRoom length q t = .ok (q1, t1) ∧
      (∀ x, x ∈ t1 ↔ x ∈ q1) ∧ q1 <:+ q ∧ q1.length = (if length ≤ (q.length : ℤ) then q.length - 1 else q.length) := by
    unfold tabuRoom at h ⊢
    by_cases hl : length ≤ q.length
    · rw [if_pos hl] at h ⊢
      cases hpop : tabuPop q t with
      | error e => rw [hpop] at h; simp at h
      | ok o =>
        obtain ⟨x, q1, t1⟩ := o
        obtain ⟨k1, k2⟩ := tabuPop_spec hsame hnd hpop
        refine ⟨q1, t1, rfl, k2, k1 ▸ List.suffix_cons _ _, ?_⟩
        rw [if_pos hl, k1]; rfl
    · rw [if_neg hl, if_neg hl]
      exact ⟨q, t, rfl, hsame, List.suffix_rfl, rfl⟩
  obtain ⟨q1, t1, r1, r2, r3, r4⟩ := hroom
  rw [r1] at h
  simp only [Except.bind_ok'] at h
  rw [← r4]
  have hnd1 : q1.Nodup := hnd.sublist r3.sublist
  have hp1 : p ∉ q1 := fun hh => hpq (r3.subset hh)
  rw [if_neg (fun hh => hp1 ((r2 p).1 hh))] at h
  split at h
  · cases h
  rename_i hd
  have hdiv : ((c + 1 : Nat) : ℤ) % duration = 0 ↔ duration ∣ ((i + 1 : Nat) : ℤ) := by
    rw [← Int.dvd_iff_emod_eq_zero]
    have : ((i + 1 : Nat) : ℤ) = ((c + 1 : Nat) : ℤ) + ((i : ℤ) - c) := by push_cast; ring
    rw [this]
    exact (dvd_add_left hc).symm
  split at h
  · rename_i hm
    rw [if_pos (by simp)] at h
    cases hpop : tabuPop (q1 ++ [p]) (t1 ++ [p]) with
    | error e => rw [hpop] at h; simp at h
    | ok o =>
      obtain ⟨x, q3, t3⟩ := o
      rw [hpop] at h
      simp only [Except.bind_ok', Except.ok.injEq, Prod.mk.injEq] at h
      obtain ⟨rfl, rfl, rfl⟩ := h
      obtain ⟨k1, -⟩ := tabuPop_spec (fun x => by rw [List.mem_append, List.mem_append, r2])
        (by rw [List.nodup_append]; exact ⟨hnd1, by simp, fun a ha b hb e => hp1 (by rw [List.mem_singleton.1 hb] at e; exact e ▸ ha)⟩) hpop
      have := congrArg List.length k1
      simp only [List.length_append, List.length_cons, List.length_nil] at this
      rw [if_pos (hdiv.1 hm)]
      exact ⟨by omega, by simpa using hdiv.1 hm⟩
  · rename_i hm
    simp only [Except.ok.injEq, Prod.mk.injEq] at h
    obtain ⟨rfl, rfl, rfl⟩ := h
    rw [if_neg (fun hh => hm (hdiv.2 hh))]
    refine ⟨by simp, ?_⟩
    have : ((i + 1 : Nat) : ℤ) - ((c + 1 : Nat) : ℤ) = (i : ℤ) - c := by push_cast; ring
    rw [this]; exact hc

/-- The lengths of the tabu list in the ghost log. -/
theorem tabuLoop_lengths {prior others : List Label} {patience : Option ℤ} {length duration : ℤ} {pick drop : Nat → Nat}
    (hE : SearchReady E) (hn : n ∈ E.struct.labels) (ho : ∀ p ∈ others, p ∈ E.struct.labels ∧ p ≠ n ∧ p ∉ prior)
    (hnd : others.Nodup) (start : S)
    (k i : Nat) (g : NetworkGraph) (best : S) (count : Nat) (q t : List Label) (c : Nat) (log : List (TabuStep S)) (u : List Label)
    (hI : SInv E n mp prior g best count (start :: log.map TabuStep.score) u)
    (hQ : QInv others (log.map TabuStep.cand) q t length) (hL : LogOk others length log)
    (hlog : ∀ j (h : j < log.length), log[j].queue.length = tabuCount others.length length duration j)
    (hq : q.length = tabuCount others.length length duration log.length) (hc : duration ∣ (log.length : ℤ) - c)
    {g' : NetworkGraph} {log' : List (TabuStep S)}
    (h : E.tabuLoop n others mp patience length duration pick drop k i g best count q t c log = .ok (g', log')) :
    ∀ j (h : j < log'.length), log'[j].queue.length = tabuCount others.length length duration j := by
  induction k generalizing i g best count q t c log u with
  | zero =>
    simp only [tabuLoop, Except.ok.injEq, Prod.mk.injEq] at h
    obtain ⟨rfl, rfl⟩ := h
    exact hlog
  | succ k ih =>
    rw [tabuLoop] at h
    cases h1 : tabuPick others q t (pick i) with
    | error e => rw [h1] at h; simp at h
    | ok o1 =>
    obtain ⟨p, q1, t1⟩ := o1
    rw [h1] at h
    simp only [Except.bind_ok'] at h
    cases h2 : E.tryMove n mp g best p (drop i) with
    | error e => rw [h2] at h; simp at h
    | ok o2 =>
    obtain ⟨g1, imp, s⟩ := o2
    rw [h2] at h
    simp only [Except.bind_ok'] at h
    cases h3 : tabuUpdate length duration q1 t1 p c with
    | error e => rw [h3] at h; simp at h
    | ok o3 =>
    obtain ⟨q2, t2, c'⟩ := o3
    rw [h3] at h
    simp only [Except.bind_ok'] at h
    obtain ⟨⟨u', k2⟩, kq, kl, -, -⟩ := tabuIter_spec hE hn ho hI hQ hL h1 h2 h3
    obtain ⟨-, p2, p3, p4, -⟩ := tabuPick_spec hQ h1
    obtain ⟨l1, l2⟩ := tabuUpdate_length p3 (hQ.nodup.sublist p4.sublist) p2 hc h3
    have hlog' : ∀ j (h : j < (log ++ [(⟨p, q, s⟩ : TabuStep S)]).length),
        (log ++ [(⟨p, q, s⟩ : TabuStep S)])[j].queue.length = tabuCount others.length length duration j := by
      intro j hj
      by_cases hlt : j < log.length
      · rw [List.getElem_append_left hlt]; exact hlog j hlt
      · have : j = log.length := by simp at hj; omega
        subst this; simpa using hq
    by_cases hout : outOfPatience patience (if imp = true then 0 else count + 1) = true
    · rw [if_pos hout] at h
      simp only [pure, Except.pure, Except.ok.injEq, Prod.mk.injEq] at h
      obtain ⟨rfl, rfl⟩ := h
      exact hlog'
    · rw [if_neg hout] at h
      refine ih _ _ _ _ _ _ _ _ _ k2 kq kl hlog' ?_ ?_ h
      · rw [List.length_append, List.length_singleton, tabuCount, ← hq]
        rw [← tabuPick_length hQ hnd h1]
        exact l1
      · simpa using l2

end SearchEnv

section
open SearchEnv
variable {S : Type} [LinearOrder S] {E : SearchEnv S} {known : List Edge} {n : Label} {mp patience tl td : Option ℤ}
  {iterations : Nat} {pick drop : Nat → Nat} {es : List Edge} {start : S} {steps : List (TabuStep S)}

theorem candidates_card {prior : List Label} (hE : SearchReady E) (h2 : ∀ p, p ∈ prior ↔ (p, n) ∈ known) :
    (candidates E known n).card = (E.otherNodes n prior).length := by
  have : candidates E known n = (E.otherNodes n prior).toFinset := by
    ext p; rw [mem_candidates h2, List.mem_toFinset]
  rw [this, List.toFinset_card_of_nodup (show (E.otherNodes n prior).Nodup from hE.wf.nodup.filter _)]

/-- C125.  When iteration `i` begins, the tabu list consists of exactly the candidates examined in the last `ℓ` iterations, oldest
first, where `ℓ` is given by the documented rules (`Spec.tabuCount`) from the number of candidates, `tabu_length` and
`tabu_rules_duration` alone: it depends neither on the data nor on the random choices. -/
theorem tabu_list_exact (hE : SearchReady E) (hK : KnownEdges E known)
    (h : E.tabu n mp iterations patience tl td pick drop = .ok (es, start, steps)) (i : Nat) (hi : i < steps.length) :
    let N := (candidates E known n).card
    let ℓ := tabuCount N (tl.getD N) (td.getD N) i
    ℓ ≤ i ∧ steps[i].queue = ((steps.take i).map TabuStep.cand).drop (i - ℓ) := by
  intro N ℓ
  have hdisc := (tabu_discipline hE hK h i hi).2.1
  obtain ⟨hn, prior, g0, h1, h2, h3, g, h4, rfl⟩ := tabu_run hE hK h
  have hN : N = (E.otherNodes n prior).length := candidates_card hE h2
  have hl := tabuLoop_lengths hE hn (fun p hp => mem_otherNodes.1 hp) (hE.wf.nodup.filter _) start _ _ _ _ _ _ _ _ _ _
    (by simpa using h3) (QInv.empty _ _) (fun i hi => by simp at hi) (fun j hj => by simp at hj) (by simp [tabuCount]) (by simp) h4 i hi
  rw [← hN] at hl
  have hlen : ((steps.take i).map TabuStep.cand).length = i := by simp; omega
  have hle := hdisc.length_le
  rw [hlen] at hle
  have hl' : steps[i].queue.length = ℓ := hl
  refine ⟨by omega, ?_⟩
  have := List.suffix_iff_eq_drop.1 hdisc
  rw [hlen, hl'] at this
  exact this

theorem tabuCount_le (N : Nat) (hN : 0 < N) (L D : ℤ) (i : Nat) : tabuCount N L D i ≤ N := by
  induction i with
  | zero => simp [tabuCount]
  | succ i ih =>
    simp only [tabuCount]
    split_ifs <;> omega

theorem tabuCount_ge (N : Nat) (hN : 0 < N) (L D : ℤ) (hL : (N : ℤ) ≤ L) (hD : (N : ℤ) ≤ |D|) (i : Nat) :
    min i (N - 1) ≤ tabuCount N L D i := by
  induction i with
  | zero => simp
  | succ i ih =>
    have hle := tabuCount_le N hN L D i
    have hdvd : D ∣ ((i + 1 : Nat) : ℤ) → N ≤ i + 1 := by
      intro hd
      have h0 : ((i + 1 : Nat) : ℤ) ≠ 0 := by omega
      have := Int.le_of_dvd (by omega) ((abs_dvd D _).2 hd)
      omega
    simp only [tabuCount]
    split_ifs with h1 h2 h3 h4 h5 h6 <;> first | omega | (have := hdvd (by assumption); omega)

/-- C126.  If `tabu_length` and `tabu_rules_duration` are unset, or at least the number `N` of candidates, tabu search goes round:
any `N` successive iterations examine every candidate exactly once, and from then on in the same order over and over. -/
theorem tabu_round_robin (hE : SearchReady E) (hK : KnownEdges E known) {N : Nat} (hN : (candidates E known n).card = N)
    (htl : ∀ k, tl = some k → (N : ℤ) ≤ k)
    (htd : ∀ k, td = some k → (N : ℤ) ≤ |k|)
    (h : E.tabu n mp iterations patience tl td pick drop = .ok (es, start, steps)) :
    (∀ i, i + N ≤ steps.length →
      (((steps.map TabuStep.cand).drop i).take N).toFinset = candidates E known n ∧
      (((steps.map TabuStep.cand).drop i).take N).Nodup) ∧
    ∀ i (hi : i + N < steps.length), steps[i + N].cand = steps[i].cand := by
  have hfacts := tabu_discipline hE hK h
  have hexact := tabu_list_exact hE hK h
  simp only at hexact
  rw [hN] at hexact
  rcases Nat.eq_zero_or_pos N with h0 | hpos
  · -- no candidates: no iterations
    have hz : steps.length = 0 := by
      by_contra hc
      have := (hfacts 0 (by omega)).1
      rw [Finset.card_eq_zero.1 (hN.trans h0)] at this
      simp at this
    subst h0
    refine ⟨fun i hi => ?_, fun i hi => absurd hi (by omega)⟩
    rw [Finset.card_eq_zero.1 hN]
    simp
  -- the list at iteration `i` contains the last `min i (N-1)` candidates
  have hge : ∀ i (hi : i < steps.length), min i (N - 1) ≤ tabuCount N (tl.getD N) (td.getD N) i := fun i hi =>
    tabuCount_ge N hpos _ _ (by cases tl with | none => simp | some k => simpa using htl k rfl)
      (by cases td with | none => simp | some k => simpa using htd k rfl) i
  -- a candidate differs from those of the `N - 1` iterations before
  have hmemq : ∀ i (hi : i < steps.length) j (hj : j < i), i ≤ j + (N - 1) → steps[j].cand ∈ steps[i].queue := by
    intro i hi j hj hji
    obtain ⟨e1, e2⟩ := hexact i hi
    have := hge i hi
    rw [e2]
    have hidx : j - (i - tabuCount N (tl.getD N) (td.getD N) i) <
        (((steps.take i).map TabuStep.cand).drop (i - tabuCount N (tl.getD N) (td.getD N) i)).length := by
      simp; omega
    have hget : (((steps.take i).map TabuStep.cand).drop (i - tabuCount N (tl.getD N) (td.getD N) i))[
        j - (i - tabuCount N (tl.getD N) (td.getD N) i)] = steps[j].cand := by
      rw [List.getElem_drop, List.getElem_map, List.getElem_take]
      congr 2
      omega
    rw [← hget]
    exact List.getElem_mem hidx
  have hdiff : ∀ i (hi : i < steps.length) j (hj : j < i), i ≤ j + (N - 1) → steps[i].cand ≠ steps[j].cand := by
    intro i hi j hj hji he
    have hm := hmemq i hi j hj hji
    rcases (hfacts i hi).2.2.2.2 with k | ⟨k1, k2⟩
    · exact k (he ▸ hm)
    · -- the list is full: its head is `N` iterations back
      have hcard : N ≤ steps[i].queue.length := by
        rw [← hN]
        have : candidates E known n ⊆ steps[i].queue.toFinset := fun x hx => List.mem_toFinset.2 (k1 x hx)
        exact (Finset.card_le_card this).trans (List.toFinset_card_le _)
      have hnodup := (hfacts i hi).2.2.1
      obtain ⟨e1, e2⟩ := hexact i hi
      generalize hℓ : tabuCount N (tl.getD N) (td.getD N) i = ℓ at e1 e2
      have hlen : steps[i].queue.length = ℓ := by rw [e2]; simp; omega
      have g0 : 0 < steps[i].queue.length := by omega
      have hhead : steps[i].queue[0] = steps[i].cand := by
        rw [List.head?_eq_getElem?, List.getElem?_eq_getElem g0] at k2
        exact Option.some.inj k2
      have gj : j - (i - ℓ) < steps[i].queue.length := by omega
      have hj' : steps[i].queue[j - (i - ℓ)] = steps[j].cand := by
        have : ∀ (l : List Label) (hl : j - (i - ℓ) < l.length), l = ((steps.take i).map TabuStep.cand).drop (i - ℓ) →
            l[j - (i - ℓ)] = steps[j].cand := by
          rintro l hl rfl
          rw [List.getElem_drop, List.getElem_map, List.getElem_take]
          congr 2
          omega
        exact this _ gj e2
      have : (0 : Nat) = j - (i - ℓ) := (List.Nodup.getElem_inj_iff hnodup).1 (by rw [hhead, hj', he])
      omega
  -- hence windows of `N` are permutations of the candidates
  have hwin : ∀ i, i + N ≤ steps.length →
      (((steps.map TabuStep.cand).drop i).take N).toFinset = candidates E known n ∧
      (((steps.map TabuStep.cand).drop i).take N).Nodup := by
    intro i hi
    have hnd : (((steps.map TabuStep.cand).drop i).take N).Nodup := by
      rw [List.nodup_iff_injective_getElem]
      intro a b hab
      have ha := a.2; have hb := b.2
      simp only [List.length_take, List.length_drop, List.length_map] at ha hb
      simp only [List.getElem_take, List.getElem_drop, List.getElem_map] at hab
      rcases lt_trichotomy a.1 b.1 with hlt | heq | hlt
      · exact absurd hab.symm (hdiff (i + b.1) (by omega) (i + a.1) (by omega) (by omega))
      · exact Fin.ext heq
      · exact absurd hab (hdiff (i + a.1) (by omega) (i + b.1) (by omega) (by omega))
    refine ⟨?_, hnd⟩
    apply Finset.eq_of_subset_of_card_le
    · intro x hx
      rw [List.mem_toFinset] at hx
      have hx := List.mem_of_mem_drop (List.mem_of_mem_take hx)
      obtain ⟨st, hst, rfl⟩ := List.mem_map.1 hx
      obtain ⟨j, hj, rfl⟩ := List.getElem_of_mem hst
      exact (hfacts j hj).1
    · rw [List.toFinset_card_of_nodup hnd, hN]
      simp; omega
  refine ⟨hwin, fun i hi => ?_⟩
  -- the window after `i` and the one from `i` have the same elements
  obtain ⟨w1, w2⟩ := hwin i (by omega)
  have hc := (hfacts (i + N) hi).1
  rw [← w1, List.mem_toFinset] at hc
  obtain ⟨j, hj, hjc⟩ := List.getElem_of_mem hc
  simp only [List.length_take, List.length_drop, List.length_map] at hj
  simp only [List.getElem_take, List.getElem_drop, List.getElem_map] at hjc
  rcases Nat.eq_zero_or_pos j with rfl | hjp
  · exact hjc.symm
  · exact absurd hjc.symm (hdiff (i + N) hi (i + j) (by omega) (by omega))

end

open SearchEnv

/-- Four variables, no known edge: `X` has three candidates. -/
def tabuDemo : SearchEnv ℤ where
  struct := ⟨["X", "Y", "Z", "W"], [0, 1, 2, 3], [2, 2, 2, 2], [], 4⟩
  removable := List.replicate 4 (List.replicate 4 true)
  score _ g := .ok (g.edges.length : ℤ)

/-- The hypotheses of C125 and C126 are met by a search with three candidates; the draws fix the order of the first round. -/
example : SearchReady tabuDemo ∧ KnownEdges tabuDemo [] ∧ (candidates tabuDemo [] "X").card = 3 ∧
    ∃ es start steps, tabuDemo.tabu "X" none 7 none none none (fun i => 2 - i) (fun _ => 0) = .ok (es, start, steps) ∧
      steps.map TabuStep.cand = ["W", "Z", "Y", "W", "Z", "Y", "W"] ∧
      steps.map (fun st => st.queue.length) = [0, 1, 2, 2, 3, 3, 2] := by
  refine ⟨⟨⟨by decide, by decide, by decide⟩, rfl⟩, ⟨by decide, by decide +kernel, by decide⟩, by decide, ?_⟩
  exact ⟨_, _, _, rfl, by decide +kernel, by decide +kernel⟩

/-- With a shorter `tabu_length` the rounds are lost: `Y` is examined twice and `W` never in three iterations. -/
example : ∃ es start steps, tabuDemo.tabu "X" none 3 none (some 1) none (fun _ => 0) (fun _ => 0) = .ok (es, start, steps) ∧
      steps.map TabuStep.cand = ["Y", "Z", "Y"] :=
  ⟨_, _, _, rfl, by decide +kernel⟩

end PyCTBN
