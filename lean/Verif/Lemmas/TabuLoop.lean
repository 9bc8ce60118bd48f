import Verif.Lemmas.SearchLoop

namespace PyCTBN
open Spec
namespace SearchEnv
variable {S : Type} [LinearOrder S] {E : SearchEnv S} {n : Label} {mp : Option ℤ}

/-- The tabu bookkeeping between iterations: `done` are the candidates examined so far. -/
structure QInv (others done q t : List Label) (length : ℤ) : Prop where
  same : ∀ x, x ∈ t ↔ x ∈ q
  nodup : q.Nodup
  sub : ∀ x ∈ q, x ∈ others
  suffix : q <:+ done
  bound : (q.length : ℤ) ≤ max 0 length

theorem tabuPop_spec {q t : List Label} (hs : ∀ x, x ∈ t ↔ x ∈ q) (hq : q.Nodup) {x : Label} {q' t' : List Label}
    (h : tabuPop q t = .ok (x, q', t')) : q = x :: q' ∧ ∀ y, y ∈ t' ↔ y ∈ q' := by
  cases q with
  | nil => simp [tabuPop, queueGet] at h
  | cons a q =>
    unfold tabuPop queueGet at h
    simp only [Except.bind_ok'] at h
    unfold setRemove at h
    have ha : a ∈ t := (hs a).2 (by simp)
    rw [if_pos ha] at h
    simp only [Except.bind_ok', pure, Except.pure, Except.ok.injEq, Prod.mk.injEq] at h
    obtain ⟨rfl, rfl, rfl⟩ := h
    refine ⟨rfl, fun y => ?_⟩
    rw [List.mem_filter, hs]
    simp only [List.mem_cons, decide_eq_true_eq]
    have := (List.nodup_cons.1 hq).1
    constructor
    · rintro ⟨h1 | h1, h2⟩
      · exact absurd h1 h2
      · exact h1
    · intro h1; exact ⟨Or.inr h1, fun e => this (e ▸ h1)⟩

theorem tabuPop_ok {q t : List Label} (hs : ∀ x, x ∈ t ↔ x ∈ q) (hne : q ≠ []) : ∃ out, tabuPop q t = .ok out := by
  cases q with
  | nil => exact absurd rfl hne
  | cons a q =>
    unfold tabuPop queueGet
    simp only [Except.bind_ok']
    unfold setRemove
    rw [if_pos ((hs a).2 (by simp))]
    exact ⟨_, rfl⟩

/-- What an iteration may pick. -/
theorem tabuPick_spec {others done q t : List Label} {length : ℤ} (hI : QInv others done q t length) {r : Nat} {p : Label}
    {q1 t1 : List Label} (h : tabuPick others q t r = .ok (p, q1, t1)) :
    p ∈ others ∧ p ∉ q1 ∧ (∀ x, x ∈ t1 ↔ x ∈ q1) ∧ q1 <:+ q ∧
      (p ∉ q ∨ ((∀ x ∈ others, x ∈ q) ∧ q.head? = some p)) := by
  unfold tabuPick at h
  simp only at h
  split at h
  · cases hc : choice (others.filter (fun l => decide (l ∉ t))) r with
    | error e => rw [hc] at h; simp at h
    | ok x =>
      rw [hc] at h
      simp only [Except.bind_ok', pure, Except.pure, Except.ok.injEq, Prod.mk.injEq] at h
      obtain ⟨rfl, rfl, rfl⟩ := h
      have hm := choice_mem hc
      rw [List.mem_filter] at hm
      simp only [decide_eq_true_eq] at hm
      have hpq : x ∉ q := fun hx => hm.2 ((hI.same x).2 hx)
      exact ⟨hm.1, hpq, hI.same, List.suffix_rfl, Or.inl hpq⟩
  · rename_i hlen
    obtain ⟨h1, h2⟩ := tabuPop_spec hI.same hI.nodup h
    subst h1
    refine ⟨hI.sub p (by simp), (List.nodup_cons.1 hI.nodup).1, h2, List.suffix_cons _ _, Or.inr ⟨fun x hx => ?_, rfl⟩⟩
    by_contra hxq
    apply hlen
    apply List.length_pos_of_mem (a := x)
    rw [List.mem_filter]
    exact ⟨hx, by simpa using fun h => hxq ((hI.same x).1 h)⟩

theorem tabuPick_ok {others done q t : List Label} {length : ℤ} (hI : QInv others done q t length) (hne : others ≠ []) (r : Nat) :
    ∃ out, tabuPick others q t r = .ok out := by
  unfold tabuPick
  simp only
  split
  · rename_i hlen
    obtain ⟨x, _, hx⟩ := choice_ok (List.length_pos_iff.1 hlen) r
    exact ⟨_, by rw [hx]; rfl⟩
  · rename_i hlen
    apply tabuPop_ok hI.same
    rintro rfl
    obtain ⟨x, hx⟩ := List.exists_mem_of_ne_nil _ hne
    apply hlen
    apply List.length_pos_of_mem (a := x)
    rw [List.mem_filter]
    exact ⟨hx, by simpa using fun h => by simpa using (hI.same x).1 h⟩

/-- The bookkeeping keeps the invariant. -/
theorem tabuUpdate_spec {others done q t : List Label} {length duration : ℤ} {p : Label} {c : Nat}
    (hsame : ∀ x, x ∈ t ↔ x ∈ q) (hnd : q.Nodup) (hsub : ∀ x ∈ q, x ∈ others) (hsuf : q <:+ done)
    (hb : (q.length : ℤ) ≤ max 0 length) (hp : p ∈ others) (hpq : p ∉ q) {q' t' : List Label} {c' : Nat}
    (h : tabuUpdate length duration q t p c = .ok (q', t', c')) :
    QInv others (done ++ [p]) q' t' length ∧ duration ≠ 0 ∧ 0 < length := by
  unfold tabuUpdate at h
  -- first part: make room
  have hroom : ∃ q1 t1, tabuRoom length q t = .ok (q1, t1) ∧
      (∀ x, x ∈ t1 ↔ x ∈ q1) ∧ q1 <:+ q ∧ (q1.length : ℤ) + 1 ≤ length := by
    unfold tabuRoom at h ⊢
    by_cases hl : length ≤ q.length
    · rw [if_pos hl] at h ⊢
      cases hpop : tabuPop q t with
      | error e => rw [hpop] at h; simp at h
      | ok o =>
        obtain ⟨x, q1, t1⟩ := o
        obtain ⟨k1, k2⟩ := tabuPop_spec hsame hnd hpop
        refine ⟨q1, t1, rfl, k2, k1 ▸ List.suffix_cons _ _, ?_⟩
        rw [k1] at hb hl
        simp only [List.length_cons, Nat.cast_add, Nat.cast_one] at hb hl
        omega
    · rw [if_neg hl]
      exact ⟨q, t, rfl, hsame, List.suffix_rfl, by omega⟩
  obtain ⟨q1, t1, r1, r2, r3, r4⟩ := hroom
  rw [r1] at h
  simp only [Except.bind_ok'] at h
  have hnd1 : q1.Nodup := hnd.sublist r3.sublist
  have hp1 : p ∉ q1 := fun hh => hpq (r3.subset hh)
  have hq2 : QInv others (done ++ [p]) (q1 ++ [p]) (if p ∈ t1 then t1 else t1 ++ [p]) length := by
    refine ⟨fun x => ?_, ?_, ?_, ?_, ?_⟩
    · rw [if_neg (fun hh => hp1 ((r2 p).1 hh))]
      rw [List.mem_append, List.mem_append, r2]
    · rw [List.nodup_append]
      refine ⟨hnd1, by simp, fun a ha b hb e => ?_⟩
      rw [List.mem_singleton.1 hb] at e; exact hp1 (e ▸ ha)
    · intro x hx
      rcases List.mem_append.1 hx with hx | hx
      · exact hsub x (r3.subset hx)
      · rw [List.mem_singleton.1 hx]; exact hp
    · obtain ⟨pre, hpre⟩ := r3.trans hsuf
      exact ⟨pre, by rw [← hpre, List.append_assoc]⟩
    · rw [List.length_append, List.length_singleton]; push_cast; omega
  split at h
  · cases h
  rename_i hd
  refine ⟨?_, hd, by have := q1.length.cast_nonneg (α := ℤ); omega⟩
  split at h
  · rw [if_pos (by simp)] at h
    cases hpop : tabuPop (q1 ++ [p]) (if p ∈ t1 then t1 else t1 ++ [p]) with
    | error e => rw [hpop] at h; simp at h
    | ok o =>
      obtain ⟨x, q3, t3⟩ := o
      rw [hpop] at h
      simp only [Except.bind_ok', Except.ok.injEq, Prod.mk.injEq] at h
      obtain ⟨rfl, rfl, rfl⟩ := h
      obtain ⟨k1, k2⟩ := tabuPop_spec hq2.same hq2.nodup hpop
      have hsuf3 : q3 <:+ q1 ++ [p] := by rw [k1]; exact List.suffix_cons _ _
      refine ⟨k2, hq2.nodup.sublist hsuf3.sublist, fun y hy => hq2.sub y (hsuf3.subset hy), hsuf3.trans hq2.suffix, ?_⟩
      have h1 := hsuf3.length_le
      have h2 := hq2.bound
      omega
  · simp only [Except.ok.injEq, Prod.mk.injEq] at h
    obtain ⟨rfl, rfl, rfl⟩ := h
    exact hq2

theorem tabuUpdate_ok {q t : List Label} {length duration : ℤ} {p : Label} {c : Nat}
    (hsame : ∀ x, x ∈ t ↔ x ∈ q) (hnd : q.Nodup) (hpq : p ∉ q) (hl : 0 < length) (hd : duration ≠ 0) :
    ∃ out, tabuUpdate length duration q t p c = .ok out := by
  unfold tabuUpdate
  have hroom : ∃ q1 t1, tabuRoom length q t = .ok (q1, t1) ∧
      (∀ x, x ∈ t1 ↔ x ∈ q1) ∧ q1 <:+ q := by
    unfold tabuRoom
    by_cases hle : length ≤ q.length
    · rw [if_pos hle]
      obtain ⟨⟨x, q1, t1⟩, hpop⟩ := tabuPop_ok hsame (q := q) (by rintro rfl; simp at hle; omega)
      obtain ⟨k1, k2⟩ := tabuPop_spec hsame hnd hpop
      exact ⟨q1, t1, by rw [hpop]; rfl, k2, k1 ▸ List.suffix_cons _ _⟩
    · rw [if_neg hle]; exact ⟨q, t, rfl, hsame, List.suffix_rfl⟩
  obtain ⟨q1, t1, r1, r2, r3⟩ := hroom
  rw [r1]
  simp only [Except.bind_ok']
  rw [if_neg hd]
  have hp1 : p ∉ q1 := fun hh => hpq (r3.subset hh)
  split
  · rw [if_pos (by simp)]
    obtain ⟨out, hpop⟩ := tabuPop_ok (q := q1 ++ [p]) (t := if p ∈ t1 then t1 else t1 ++ [p]) (fun x => by
      rw [if_neg (fun hh => hp1 ((r2 p).1 hh)), List.mem_append, List.mem_append, r2]) (by simp)
    rw [hpop]; exact ⟨_, rfl⟩
  · exact ⟨_, rfl⟩

/-- One step obeys the tabu discipline, `before` being the candidates examined earlier. -/
structure StepOk (others before : List Label) (length : ℤ) (st : TabuStep S) : Prop where
  cand : st.cand ∈ others
  nodup : st.queue.Nodup
  sub : ∀ x ∈ st.queue, x ∈ others
  recent : st.queue <:+ before
  bound : (st.queue.length : ℤ) ≤ max 0 length
  rule : st.cand ∉ st.queue ∨ ((∀ x ∈ others, x ∈ st.queue) ∧ st.queue.head? = some st.cand)

/-- Every step of the log obeys the discipline. -/
def LogOk (others : List Label) (length : ℤ) (log : List (TabuStep S)) : Prop :=
  ∀ i (h : i < log.length), StepOk others ((log.take i).map TabuStep.cand) length log[i]

theorem LogOk.snoc {others : List Label} {length : ℤ} {log : List (TabuStep S)} {st : TabuStep S} (h : LogOk others length log)
    (hs : StepOk others (log.map TabuStep.cand) length st) : LogOk others length (log ++ [st]) := by
  intro i hi
  rw [List.length_append, List.length_singleton] at hi
  by_cases hlt : i < log.length
  · have := h i hlt
    rw [List.getElem_append_left hlt, List.take_append_of_le_length (by omega)]
    exact this
  · have : i = log.length := by omega
    subst this
    simpa using hs

/-- What one returning iteration does. -/
structure TabuIter (E : SearchEnv S) (n : Label) (mp : Option ℤ) (prior others : List Label) (length duration : ℤ)
    (g : NetworkGraph) (best : S) (count : Nat) (start : S) (q : List Label) (log : List (TabuStep S))
    (p : Label) (g1 : NetworkGraph) (imp : Bool) (s : S) (q2 t2 : List Label) : Prop where
  inv : ∃ u', SInv E n mp prior g1 (if imp then s else best) (if imp then 0 else count + 1)
    (start :: (log ++ [(⟨p, q, s⟩ : TabuStep S)]).map TabuStep.score) u'
  qinv : QInv others ((log ++ [(⟨p, q, s⟩ : TabuStep S)]).map TabuStep.cand) q2 t2 length
  logOk : LogOk others length (log ++ [(⟨p, q, s⟩ : TabuStep S)])
  dur : duration ≠ 0
  len : 0 < length

theorem tabuIter_spec {prior others : List Label} {length duration : ℤ} (hE : SearchReady E)
    (hn : n ∈ E.struct.labels) (ho : ∀ p ∈ others, p ∈ E.struct.labels ∧ p ≠ n ∧ p ∉ prior)
    {g : NetworkGraph} {best : S} {count : Nat} {start : S} {q t : List Label} {log : List (TabuStep S)} {u : List Label}
    (hI : SInv E n mp prior g best count (start :: log.map TabuStep.score) u)
    (hQ : QInv others (log.map TabuStep.cand) q t length) (hL : LogOk others length log)
    {r r' : Nat} {p : Label} {q1 t1 : List Label} (h1 : tabuPick others q t r = .ok (p, q1, t1))
    {g1 : NetworkGraph} {imp : Bool} {s : S} (h2 : E.tryMove n mp g best p r' = .ok (g1, imp, s))
    {c c' : Nat} {q2 t2 : List Label} (h3 : tabuUpdate length duration q1 t1 p c = .ok (q2, t2, c')) :
    TabuIter E n mp prior others length duration g best count start q log p g1 imp s q2 t2 := by
  obtain ⟨k1, k2, k3, k4, k5⟩ := tabuPick_spec hQ h1
  obtain ⟨o1, o2, o3⟩ := ho p k1
  obtain ⟨s1, u', s2⟩ := SInv.step hE hI hn o1 o2 o3 h2
  have hb : (q1.length : ℤ) ≤ max 0 length := by
    have h1 := k4.length_le
    have h2 := hQ.bound
    omega
  obtain ⟨t1, t2, t3⟩ := tabuUpdate_spec k3 (hQ.nodup.sublist k4.sublist) (fun x hx => hQ.sub x (k4.subset hx)) (k4.trans hQ.suffix) hb
    k1 k2 h3
  refine ⟨⟨u', by simpa using s2⟩, by simpa using t1, hL.snoc ⟨k1, hQ.nodup, hQ.sub, hQ.suffix, hQ.bound, k5⟩, t2, t3⟩

/-- Whenever the loop returns, the invariants hold of what it returns. -/
theorem tabuLoop_inv {prior others : List Label} {patience : Option ℤ} {length duration : ℤ} {pick drop : Nat → Nat}
    (hE : SearchReady E) (hn : n ∈ E.struct.labels) (ho : ∀ p ∈ others, p ∈ E.struct.labels ∧ p ≠ n ∧ p ∉ prior) (start : S)
    (k i : Nat) (g : NetworkGraph) (best : S) (count : Nat) (q t : List Label) (c : Nat) (log : List (TabuStep S)) (u : List Label)
    (hI : SInv E n mp prior g best count (start :: log.map TabuStep.score) u)
    (hQ : QInv others (log.map TabuStep.cand) q t length) (hL : LogOk others length log)
    {g' : NetworkGraph} {log' : List (TabuStep S)}
    (h : E.tabuLoop n others mp patience length duration pick drop k i g best count q t c log = .ok (g', log')) :
    LogOk others length log' ∧ (∃ best' count' u', SInv E n mp prior g' best' count' (start :: log'.map TabuStep.score) u') ∧
    log'.length ≤ log.length + k ∧ (patience = none → log'.length = log.length + k) ∧
    ∀ m : Nat, patience = some (m : ℤ) → Patient m (start :: log.map TabuStep.score) → count ≤ m →
      (log'.length = log.length + k ∨ Stalled (start :: log'.map TabuStep.score) (m + 1)) ∧
      ∀ l, l <+: start :: log'.map TabuStep.score → l ≠ start :: log'.map TabuStep.score → l ≠ [] → ∃ c, c ≤ m ∧ Stalled l c := by
  induction k generalizing i g best count q t c log u with
  | zero =>
    simp only [tabuLoop, Except.ok.injEq, Prod.mk.injEq] at h
    obtain ⟨rfl, rfl⟩ := h
    exact ⟨hL, ⟨_, _, _, hI⟩, le_rfl, fun _ => rfl, fun m _ hP _ => ⟨Or.inl rfl, fun l h1 _ h3 => hP l h1 h3⟩⟩
  | succ k ih =>
    rw [tabuLoop] at h
    cases h1 : tabuPick others q t (pick i) with
    | error e => rw [h1] at h; simp at h
    | ok o1 =>
    obtain ⟨p, q1, t1⟩ := o1
    rw [h1] at h
    simp only [Except.bind_ok'] at h
    cases h2 : E.tryMove n mp g best p (drop i) with
    | error e => rw [h2] at h; simp at h
    | ok o2 =>
    obtain ⟨g1, imp, s⟩ := o2
    rw [h2] at h
    simp only [Except.bind_ok'] at h
    cases h3 : tabuUpdate length duration q1 t1 p c with
    | error e => rw [h3] at h; simp at h
    | ok o3 =>
    obtain ⟨q2, t2, c'⟩ := o3
    rw [h3] at h
    simp only [Except.bind_ok'] at h
    obtain ⟨⟨u', k2⟩, kq, kl, -, -⟩ := tabuIter_spec hE hn ho hI hQ hL h1 h2 h3
    have hmap : start :: (log ++ [(⟨p, q, s⟩ : TabuStep S)]).map TabuStep.score = (start :: log.map TabuStep.score) ++ [s] := by simp
    by_cases hout : outOfPatience patience (if imp = true then 0 else count + 1) = true
    · rw [if_pos hout] at h
      simp only [pure, Except.pure, Except.ok.injEq, Prod.mk.injEq] at h
      obtain ⟨rfl, rfl⟩ := h
      refine ⟨kl, ⟨_, _, _, k2⟩, by simp, fun hp => ?_, fun m hm hP hcm => ⟨Or.inr ?_, fun l h1 h2 h3 => ?_⟩⟩
      · subst hp; simp [outOfPatience] at hout
      · have hst := k2.stalled
        subst hm
        simp only [outOfPatience, decide_eq_true_eq] at hout
        cases imp with
        | true => simp at hout; omega
        | false =>
          simp only [Bool.false_eq_true, if_false] at hout hst
          have : count + 1 = m + 1 := by omega
          rwa [this] at hst
      · rw [hmap] at h1 h2
        exact hP l (prefix_append_singleton h1 h2) h3
    · rw [if_neg hout] at h
      obtain ⟨i1, i2, i3, i4, i5⟩ := ih _ _ _ _ _ _ _ _ _ k2 kq kl h
      simp only [List.length_append, List.length_singleton] at i3 i4 i5
      refine ⟨i1, i2, by omega, fun hp => by rw [i4 hp]; omega, fun m hm hP hcm => ?_⟩
      have hcount : (if imp = true then 0 else count + 1) ≤ m := by
        rw [hm] at hout
        simp only [outOfPatience, Bool.not_eq_true, decide_eq_false_iff_not, not_lt] at hout
        exact_mod_cast hout
      obtain ⟨h4, h5⟩ := i5 m hm (fun l l1 l2 => by
        by_cases hl : l = (start :: log.map TabuStep.score) ++ [s]
        · subst hl; rw [← hmap]; exact ⟨_, hcount, k2.stalled⟩
        · rw [hmap] at l1; exact hP l (prefix_append_singleton l1 hl) l2) hcount
      refine ⟨?_, h5⟩
      rcases h4 with h4 | h4
      · left; omega
      · right; exact h4

theorem tabuLoop_ok {prior others : List Label} {patience : Option ℤ} {length duration : ℤ} {pick drop : Nat → Nat}
    (hE : SearchReady E) (hn : n ∈ E.struct.labels) (ho : ∀ p ∈ others, p ∈ E.struct.labels ∧ p ≠ n ∧ p ∉ prior)
    (hs : Scorable E n) (hmp : ∀ k, mp = some k → 1 ≤ k) (hne : others ≠ []) (hlen : 0 < length) (hdur : duration ≠ 0) (start : S)
    (k i : Nat) (g : NetworkGraph) (best : S) (count : Nat) (q t : List Label) (c : Nat) (log : List (TabuStep S)) (u : List Label)
    (hI : SInv E n mp prior g best count (start :: log.map TabuStep.score) u)
    (hQ : QInv others (log.map TabuStep.cand) q t length) (hL : LogOk others length log) :
    ∃ out, E.tabuLoop n others mp patience length duration pick drop k i g best count q t c log = .ok out := by
  induction k generalizing i g best count q t c log u with
  | zero => exact ⟨_, rfl⟩
  | succ k ih =>
    rw [tabuLoop]
    obtain ⟨⟨p, q1, t1⟩, h1⟩ := tabuPick_ok hQ hne (pick i)
    obtain ⟨k1, k2, k3, k4, k5⟩ := tabuPick_spec hQ h1
    obtain ⟨o1, o2, o3⟩ := ho p k1
    obtain ⟨⟨g1, imp, s⟩, h2⟩ := tryMove_ok (mp := mp) hE hI.graph hI.nodup hI.key hn o1 hs hmp best (drop i)
    obtain ⟨⟨q2, t2, c'⟩, h3⟩ := tabuUpdate_ok (c := c) k3 (hQ.nodup.sublist k4.sublist) k2 hlen hdur
    rw [h1]
    simp only [Except.bind_ok', h2, h3]
    obtain ⟨⟨u', k2⟩, kq, kl, -, -⟩ := tabuIter_spec hE hn ho hI hQ hL h1 h2 h3
    by_cases hout : outOfPatience patience (if imp = true then 0 else count + 1) = true
    · rw [if_pos hout]; exact ⟨_, rfl⟩
    · rw [if_neg hout]; exact ih _ _ _ _ _ _ _ _ _ k2 kq kl

end SearchEnv
end PyCTBN
