import Verif.Props.Ranking

/-!
# C114, C115: the unit of time in score-based estimation
-/

namespace PyCTBN
namespace Spec

/-- The same data with every duration multiplied by `k`: another unit of time. -/
def rescale (k : ℚ) (t : Trajectory) : Trajectory := { t with times := t.times.map (fun d => k * d) }

/-- How often variable `n` was observed to change. -/
def moves (s : Structure) (t : Trajectory) (n : Label) : Nat :=
  (t.rows.filter (fun r => decide (nextOf s r n ≠ some (-1) ∧ nextOf s r n ≠ stateOf s r n))).length

end Spec
open Spec SearchEnv

variable {s : Structure} {t : Trajectory} {c : Nat} {n : Label}

theorem residence_rescale (k : ℚ) (ps : List Label) (x : Nat) (u : List Nat) :
    residence s (rescale k t) n ps x u = k * residence s t n ps x u := by
  unfold residence rescale
  simp only
  generalize t.rows = rows
  generalize t.times = times
  induction times generalizing rows with
  | nil => simp
  | cons d times ih =>
    cases rows with
    | nil => simp
    | cons r rows =>
      simp only [List.map_cons, List.zip_cons_cons, List.filter_cons]
      split
      · simp only [List.map_cons, List.sum_cons, ih, mul_add]
      · exact ih rows

theorem transitions_rescale (k : ℚ) (ps : List Label) (x y : Nat) (u : List Nat) :
    transitions s (rescale k t) n ps x y u = transitions s t n ps x y u := rfl

theorem rescale_uniform {k : ℚ} (hk : 0 < k) (hU : UniformData s t c) : UniformData s (rescale k t) c := by
  refine ⟨hU.wf, ⟨hU.data.origCols, by simp [rescale, hU.data.len], hU.data.width, hU.data.idx_lt, hU.data.cur, hU.data.nxt⟩, hU.cards, ?_⟩
  intro d hd
  simp only [rescale, List.mem_map] at hd
  obtain ⟨d', hd', rfl⟩ := hd
  exact mul_nonneg hk.le (hU.times d' hd')

theorem qTerm_rescale {k : ℚ} (hk : 0 < k) {τ : ℝ} (hτ : 0 < τ) (α : ℝ) (m : Nat) {d : ℚ} (hd : 0 ≤ d) :
    qTerm ((k : ℝ) * τ) α m ((k * d : ℚ) : ℚ) = qTerm τ α m d - m * Real.log k := by
  have hk' : (0 : ℝ) < k := by exact_mod_cast hk
  have hd' : (0 : ℝ) ≤ d := by exact_mod_cast hd
  unfold qTerm
  push_cast
  rw [show (k : ℝ) * τ + k * d = k * (τ + d) by ring, Real.log_mul hk'.ne' hτ.ne', Real.log_mul hk'.ne' (by positivity)]
  ring

theorem residence_nonneg (htimes : ∀ d ∈ t.times, 0 ≤ d) (ps : List Label) (x : Nat) (u : List Nat) : 0 ≤ residence s t n ps x u := by
  unfold residence
  apply List.sum_nonneg
  intro d hd
  obtain ⟨r, hr, rfl⟩ := List.mem_map.1 hd
  exact htimes _ (List.of_mem_zip (List.mem_filter.1 hr).1).1

/-- One parent assignment: the score falls by the number of exits times `log k`. -/
theorem famTerm_rescale {k : ℚ} (hk : 0 < k) {τ : ℝ} (hτ : 0 < τ) (α : ℝ) (htimes : ∀ d ∈ t.times, 0 ≤ d) (ps : List Label) (u : List Nat) :
    famTerm ((k : ℝ) * τ) α c (observed s (rescale k t) n ps c u) =
      famTerm τ α c (observed s t n ps c u) - (∑ x ∈ Finset.range c, ((observed s t n ps c u).count x x : ℝ)) * Real.log k := by
  have hcount : ∀ x y, (observed s (rescale k t) n ps c u).count x y = (observed s t n ps c u).count x y := fun _ _ => rfl
  unfold famTerm
  have h1 : ∀ x, qTerm ((k : ℝ) * τ) α ((observed s (rescale k t) n ps c u).count x x) ((observed s (rescale k t) n ps c u).time x) =
      qTerm τ α ((observed s t n ps c u).count x x) ((observed s t n ps c u).time x) -
        ((observed s t n ps c u).count x x : ℝ) * Real.log k := by
    intro x
    have e : (observed s (rescale k t) n ps c u).time x = k * residence s t n ps x u := residence_rescale k ps x u
    rw [e, hcount, qTerm_rescale hk hτ α _ (residence_nonneg htimes ps x u)]
    rfl
  rw [Finset.sum_congr rfl (fun x _ => h1 x), Finset.sum_sub_distrib, Finset.sum_mul]
  have h2 : (observed s (rescale k t) n ps c u).count = (observed s t n ps c u).count := rfl
  rw [h2]
  ring

/-- Counting rows class by class. -/
theorem sum_filter_length {α ι : Type} (rows : List α) (us : List ι) (I : Finset (Nat × Nat)) (P : ι → Nat → Nat → α → Bool) (Q : α → Bool)
    (h : ∀ r ∈ rows, (us.map (fun u => ∑ i ∈ I, if P u i.1 i.2 r then 1 else 0)).sum = if Q r then 1 else 0) :
    (us.map (fun u => ∑ i ∈ I, (rows.filter (P u i.1 i.2)).length)).sum = (rows.filter Q).length := by
  induction rows with
  | nil => simp
  | cons r rows ih =>
    have ih := ih (fun x hx => h x (by simp [hx]))
    have hr := h r (by simp)
    have e : ∀ R : α → Bool, ((r :: rows).filter R).length = (if R r then 1 else 0) + (rows.filter R).length := by
      intro R
      rw [List.filter_cons]
      split <;> simp [Nat.add_comm]
    rw [e Q, ← hr, ← ih, ← List.sum_map_add]
    congr 1
    apply List.map_congr_left
    intro u _
    rw [← Finset.sum_add_distrib]
    exact Finset.sum_congr rfl (fun i _ => e _)

/-- The exits of all parent assignments add up to the moves of the variable, whatever the parents. -/
theorem exits_total (hU : UniformData s t c) (hn : n ∈ s.labels) {ps : List Label} (hps : ∀ p ∈ ps, p ∈ s.labels) {us : List (List Nat)}
    (hnd : us.Nodup) (hus : ∀ u, u ∈ us ↔ InRangeAssign (ps.map (fun _ => c)) u) :
    (us.map (fun u => ∑ x ∈ Finset.range c, (observed s t n ps c u).count x x)).sum = moves s t n := by
  have hcn : ∀ l ∈ s.labels, s.getStatesNumber l = .ok c := by
    intro l hl
    obtain ⟨w, hw', e⟩ := getStatesNumber_mem hU.wf hl
    rw [e, hU.cards w hw']
  set I : Finset (Nat × Nat) := (Finset.range c ×ˢ Finset.range c).filter (fun i => i.2 ≠ i.1) with hI
  have hIsum : ∀ f : Nat → Nat → Nat, ∑ x ∈ Finset.range c, ∑ z ∈ (Finset.range c).erase x, f x z = ∑ i ∈ I, f i.1 i.2 := by
    intro f
    rw [hI, Finset.sum_filter, Finset.sum_product]
    apply Finset.sum_congr rfl
    intro x _
    rw [← Finset.filter_ne', Finset.sum_filter]
  have hImem : ∀ i, i ∈ I ↔ i.1 < c ∧ i.2 < c ∧ i.2 ≠ i.1 := by
    rintro ⟨a, b⟩
    simp only [hI, Finset.mem_filter, Finset.mem_product, Finset.mem_range]
    tauto
  have h0 : ∀ u, ∑ x ∈ Finset.range c, (observed s t n ps c u).count x x =
      ∑ i ∈ I, (t.rows.filter (fun r => rowMatches s n ps i.1 u r && decide (nextOf s r n = some (i.2 : ℤ)))).length := by
    intro u
    rw [← hIsum (fun x z => (t.rows.filter (fun r => rowMatches s n ps x u r && decide (nextOf s r n = some (z : ℤ)))).length)]
    apply Finset.sum_congr rfl
    intro x _
    simp only [observed, if_true]
    rfl
  rw [List.map_congr_left (fun u _ => h0 u)]
  unfold moves
  apply sum_filter_length t.rows us I (fun u x z r => rowMatches s n ps x u r && decide (nextOf s r n = some (z : ℤ)))
  intro r hr
  obtain ⟨x0, hx0, hxc⟩ := hU.data.cur r hr n hn c (hcn n hn)
  have hu0 : ∃ u0, ps.map (stateOf s r) = u0.map (fun v : Nat => some (v : ℤ)) ∧ InRangeAssign (ps.map (fun _ => c)) u0 := by
    clear hus h0
    induction ps with
    | nil => exact ⟨[], rfl, List.Forall₂.nil⟩
    | cons p ps ih =>
      obtain ⟨u1, k1, k2⟩ := ih (fun q hq => hps q (by simp [hq])) 
      obtain ⟨y, hy, hyc⟩ := hU.data.cur r hr p (hps p (by simp)) c (hcn p (hps p (by simp)))
      exact ⟨y :: u1, by simp [hy, k1], List.Forall₂.cons hyc k2⟩
  obtain ⟨u0, k1, k2⟩ := hu0
  have hinj : Function.Injective (fun v : Nat => some (v : ℤ)) := fun a b h => by simpa using h
  have hmatch : ∀ u x, rowMatches s n ps x u r = decide (x = x0 ∧ u = u0) := by
    intro u x
    unfold rowMatches
    rw [hx0, k1, ← Bool.decide_and, decide_eq_decide]
    constructor
    · rintro ⟨h1, h2⟩
      exact ⟨by simpa using h1.symm, (List.map_injective_iff.2 hinj h2).symm⟩
    · rintro ⟨rfl, rfl⟩; exact ⟨rfl, rfl⟩
  have hterm : ∀ u, (∑ i ∈ I, if (rowMatches s n ps i.1 u r && decide (nextOf s r n = some (i.2 : ℤ))) = true then 1 else 0) =
      if u = u0 then (if nextOf s r n ≠ some (-1) ∧ nextOf s r n ≠ stateOf s r n then 1 else 0) else 0 := by
    intro u
    by_cases hu : u = u0
    · subst hu
      rw [if_pos rfl]
      rcases hU.data.nxt r hr n hn c (hcn n hn) with hm | ⟨z0, hz0, hzc⟩
      · rw [if_neg (fun h => h.1 hm)]
        apply Finset.sum_eq_zero
        intro i _
        rw [hm, if_neg]
        simp only [Bool.and_eq_true, decide_eq_true_eq, Option.some.injEq, not_and]
        intro _ h; omega
      · rw [hx0, hz0]
        by_cases hxz : z0 = x0
        · subst hxz
          rw [if_neg (fun h => h.2 rfl)]
          apply Finset.sum_eq_zero
          intro i hi
          rw [if_neg]
          rw [hmatch]
          simp only [Bool.and_eq_true, decide_eq_true_eq, Option.some.injEq, not_and]
          rintro ⟨h1, -⟩ h2
          have := ((hImem i).1 hi).2.2
          apply this
          rw [h1]; exact_mod_cast h2.symm
        · rw [if_pos ⟨by simp, by simpa using hxz⟩]
          rw [Finset.sum_eq_single (x0, z0)]
          · rw [if_pos]
            rw [hmatch]; simp
          · intro i _ hne
            rw [if_neg]
            rw [hmatch]
            simp only [Bool.and_eq_true, decide_eq_true_eq, Option.some.injEq, not_and]
            rintro ⟨h1, -⟩ h2
            exact hne (Prod.ext h1 (by simpa using h2.symm))
          · intro h
            exact absurd ((hImem _).2 ⟨hxc, hzc, hxz⟩) h
    · rw [if_neg hu]
      apply Finset.sum_eq_zero
      intro i _
      rw [hmatch, if_neg]
      simp [hu]
  rw [List.map_congr_left (fun u _ => hterm u)]
  have hmem : u0 ∈ us := (hus u0).2 k2
  have hone : ∀ v : Nat, (us.map (fun u => if u = u0 then v else 0)).sum = v := by
    intro v
    obtain ⟨l1, l2, hl⟩ := List.append_of_mem hmem
    have hnd' := hnd
    rw [hl, List.nodup_append] at hnd'
    obtain ⟨-, h2, h3⟩ := hnd'
    rw [List.nodup_cons] at h2
    rw [hl, List.map_append, List.sum_append, List.map_cons, List.sum_cons, if_pos rfl]
    have z : ∀ l : List (List Nat), u0 ∉ l → (l.map (fun u => if u = u0 then v else 0)).sum = 0 := by
      intro l hl
      apply List.sum_eq_zero
      intro y hy
      obtain ⟨u, hu, rfl⟩ := List.mem_map.1 hy
      rw [if_neg (by rintro rfl; exact hl hu)]
    rw [z l1 (fun h => h3 _ h _ (by simp) rfl), z l2 h2.1]
    omega
  rw [hone]
  simp

/-- The score of a graph for uniform data, in closed form. -/
theorem uniform_score_closed (hU : UniformData s t c) (hc : 2 ≤ c) {τ : ℝ} (hτ : 0 < τ) (α : ℝ) (hn : n ∈ s.labels)
    {g g' : NetworkGraph} (hg : Reach s g) (hf : g.fastInit n = .ok g') :
    famScoreOn t τ α n g' = .ok ((buildPCombs ((parentsOf g n).map (fun _ => c))).map
      (fun u => famTerm τ α c (observed s t n (parentsOf g n) c u))).sum := by
  have hcn : ∀ l ∈ s.labels, s.getStatesNumber l = .ok c := by
    intro l hl
    obtain ⟨w, hw', e⟩ := getStatesNumber_mem hU.wf hl
    rw [e, hU.cards w hw']
  obtain ⟨hI, hs⟩ := hg.inv
  have hps : ((parentsOf g n).map (fun _ => c)).map Except.ok = (parentsOf g n).map s.getStatesNumber := by
    rw [List.map_map]
    apply List.map_congr_left
    intro l hl
    rw [hcn l (hs ▸ mem_parentsOf hl)]
    rfl
  have hall : ∀ p ∈ (parentsOf g n).map (fun _ => c), p = c := by
    intro p hp; obtain ⟨_, _, rfl⟩ := List.mem_map.1 hp; rfl
  have hex : ExactCards c ((parentsOf g n).map (fun _ => c)) := by
    refine ⟨fun p hp => Or.inr (hall p hp), fun p q rest h => ?_⟩
    rw [h] at hall
    rw [hall p (by simp), hall q (by simp)]
  obtain ⟨sofc, q, h1, h2⟩ := estimate_cims_observed hg hU.data hn (hcn n hn) (by omega) hps hex
  have h3 : computeOn t g' n = .ok sofc := by
    have := estimate_split t g n
    rw [h1, hf] at this
    exact this.symm
  have hne : buildPCombs ((parentsOf g n).map (fun _ => c)) ≠ [] := by
    intro hnil
    have hlen := (p_combs_enumeration_partial _ hex.2).2.2
    rw [hnil, List.length_nil] at hlen
    have : 0 < ((parentsOf g n).map (fun _ => c)).prod := by
      apply prod_pos_of_pos
      intro p hp'
      rw [hall p hp']; omega
    omega
  unfold famScoreOn
  rw [h3]
  simp only [Except.bind_ok', h2]
  unfold cimsFor
  rw [getFamScore_closed hτ (by omega) (by simpa using hne), List.map_map]
  · rfl
  · intro p hp x _
    obtain ⟨u, -, rfl⟩ := List.mem_map.1 hp
    exact residence_nonneg hU.times _ _ _

/-- The parent table of equally many states each, as a list without repetition of all assignments. -/
theorem pCombs_uniform (ps : List Label) (c : Nat) : (buildPCombs (ps.map (fun _ => c))).Nodup ∧
    ∀ u, u ∈ buildPCombs (ps.map (fun _ => c)) ↔ InRangeAssign (ps.map (fun _ => c)) u := by
  have hall : ∀ p ∈ ps.map (fun _ => c), p = c := by
    intro p hp; obtain ⟨_, _, rfl⟩ := List.mem_map.1 hp; rfl
  have hen := p_combs_enumeration_partial (ps.map (fun _ => c)) (fun p q rest h => by
    rw [h] at hall
    rw [hall p (by simp), hall q (by simp)])
  constructor
  · rw [List.nodup_iff_getElem?_ne_getElem?]
    intro i j hij hj heq
    have hji := List.getElem?_eq_getElem hj
    have h1 := (hen.1 j _).1 hji
    have h2 := (hen.1 i _).1 (heq.trans hji)
    omega
  · intro u
    constructor
    · intro hu
      obtain ⟨r, hr⟩ := List.mem_iff_getElem?.1 hu
      exact ((hen.1 r u).1 hr).1
    · intro hu; exact List.mem_of_getElem? ((hen.1 _ u).2 ⟨hu, rfl⟩)

/-- C114.  In another unit of time, with `tau` expressed in the same unit, the score of every structure of `n` falls by the same amount:
the number of observed moves of `n` times the logarithm of the factor. -/
theorem score_time_unit (hU : UniformData s t c) (hc : 2 ≤ c) {k : ℚ} (hk : 0 < k) {τ : ℝ} (hτ : 0 < τ) (α : ℝ) (hn : n ∈ s.labels)
    {g g' : NetworkGraph} (hg : Reach s g) (hf : g.fastInit n = .ok g') :
    ∃ v, famScoreOn t τ α n g' = .ok v ∧
      famScoreOn (rescale k t) ((k : ℝ) * τ) α n g' = .ok (v - (moves s t n : ℝ) * Real.log k) := by
  refine ⟨_, uniform_score_closed hU hc hτ α hn hg hf, ?_⟩
  have hk' : (0 : ℝ) < k := by exact_mod_cast hk
  rw [uniform_score_closed (rescale_uniform hk hU) hc (by positivity) α hn hg hf]
  congr 1
  obtain ⟨hI, hs⟩ := hg.inv
  obtain ⟨hnd, hus⟩ := pCombs_uniform (parentsOf g n) c
  rw [← exits_total hU hn (fun p hp => hs ▸ mem_parentsOf hp) hnd hus]
  rw [List.map_congr_left (fun u _ => famTerm_rescale hk hτ α hU.times (parentsOf g n) u)]
  generalize buildPCombs ((parentsOf g n).map (fun _ => c)) = us
  induction us with
  | nil => simp
  | cons u us ih =>
    simp only [List.map_cons, List.sum_cons]
    rw [ih]
    push_cast
    ring

/-- C114.  Score-based estimation does not depend on the unit of time when `tau` is given in that unit: the same draws give the same edges,
report and estimator. -/
theorem estimate_time_unit {e : Estimator} {rem : List (List Bool)} {known : List Edge} (hU : UniformData e.struct.cleanEdges t c) (hc : 2 ≤ c)
    {k : ℚ} (hk : 0 < k) {τ : ℝ} (hτ : 0 < τ) (α : ℝ) {a : SBArgs} {order : Option (List Label)}
    {picks drops : Label → Nat → Nat} (ho : ∀ o, order = some o → o.Perm e.struct.labels) (hI : SearchInput e.struct.cleanEdges rem known) :
    estimateStructure (famScoreOn (rescale k t) ((k : ℝ) * τ) α) rem e a order picks drops =
      estimateStructure (famScoreOn t τ α) rem e a order picks drops := by
  symm
  refine estimate_ranking ho hI (fun m hm => ⟨fun g hg x => ?_, fun g h hg hh a b a' b' ha hb ha' hb' => ?_⟩)
  · obtain ⟨g0, h1, -, h2⟩ := hg
    obtain ⟨v, k1, k2⟩ := score_time_unit hU hc hk hτ α hm h1 h2
    rw [k1, k2]; simp
  · obtain ⟨g0, h1, -, h2⟩ := hg
    obtain ⟨g1, h3, -, h4⟩ := hh
    obtain ⟨v, k1, k2⟩ := score_time_unit hU hc hk hτ α hm h1 h2
    obtain ⟨w, k3, k4⟩ := score_time_unit hU hc hk hτ α hm h3 h4
    rw [ha] at k1; rw [hb] at k3; rw [ha'] at k2; rw [hb'] at k4
    cases k1; cases k3; cases k2; cases k4
    simp

/-! ### With `tau` left alone the unit of time matters -/

/-- Two binary variables. -/
def unitS : Structure := ⟨["X", "Y"], [0, 1], [2, 2], [], 2⟩

/-- `X` and `Y` are 0 for a time `a`, then `Y` changes; after a time `b` more `X` changes. -/
def unitT (a b : ℚ) : Trajectory := ⟨[a, b], [[0, 0, 0, 1], [0, 1, 1, 1]], 3⟩

theorem unitS_wf : WFStructure unitS := ⟨by decide, rfl, rfl⟩

theorem unitT_uniform {a b : ℚ} (ha : 0 ≤ a) (hb : 0 ≤ b) : UniformData unitS (unitT a b) 2 := by
  have hrows : (unitT a b).rows = [[0, 0, 0, 1], [0, 1, 1, 1]] := rfl
  refine ⟨unitS_wf, dataOK_of_check _ _ unitS_wf rfl rfl (by rw [hrows]; decide) (by decide) (by rw [hrows]; decide), by decide, ?_⟩
  intro d hd
  simp only [unitT, List.mem_cons, List.not_mem_nil, or_false] at hd
  rcases hd with rfl | rfl <;> assumption

theorem unit_famTerm {τ : ℝ} {st : Stats} {m : Nat} {d d1 : ℚ} (h00 : st.count 0 0 = m) (h01 : st.count 0 1 = m) (h10 : st.count 1 0 = 0)
    (h11 : st.count 1 1 = 0) (ht0 : st.time 0 = d) (ht1 : st.time 1 = d1) :
    famTerm τ 1 2 st = qTerm τ 1 m d + qTerm τ 1 0 d1 := by
  have e0 : (Finset.range 2).erase 0 = {1} := by decide
  have e1 : (Finset.range 2).erase 1 = {0} := by decide
  unfold famTerm
  rw [Finset.sum_range_succ, Finset.sum_range_one, Finset.sum_range_succ, Finset.sum_range_one, e0, e1]
  unfold thetaTerm
  simp only [Finset.sum_singleton, h00, h01, h10, h11, ht0, ht1]
  unfold FamScore.internalTheta qTerm
  norm_num

theorem unit_residence (a b : ℚ) (n : Label) (ps : List Label) (x : Nat) (u : List Nat) (p q : Bool)
    (hp : rowMatches unitS n ps x u [0, 0, 0, 1] = p) (hq : rowMatches unitS n ps x u [0, 1, 1, 1] = q) :
    (observed unitS (unitT a b) n ps 2 u).time x = (if p then a else 0) + (if q then b else 0) := by
  show residence unitS (unitT a b) n ps x u = _
  unfold residence unitT
  simp only [List.zip_cons_cons, List.zip_nil_left, List.filter_cons, List.filter_nil, hp, hq]
  cases p <;> cases q <;> simp

theorem qTerm_zero (τ : ℝ) : qTerm τ 1 0 0 = 0 := by unfold qTerm; norm_num

/-- The parents of a graph of a search over `unitS`. -/
theorem unit_parents {n o : Label} (hno : n ∈ unitS.labels ∧ o ∈ unitS.labels ∧ o ≠ n) {g0 g : NetworkGraph} (hr : Reach unitS g0)
    (he : ∀ e ∈ g0.edges, e.2 = n ∧ e.1 ≠ n) (hf : g0.fastInit n = .ok g) :
    parentsOf g0 n = if o ∈ parentsIn g.edges n then [o] else [] := by
  obtain ⟨hI, hs⟩ := hr.inv
  obtain ⟨g2, d, k1, -, -, -, k5, -⟩ := fastInit_spec hI (n := n) (by rw [hs]; exact hno.1)
  rw [hf] at k1; cases k1
  have hin : o ∈ parentsIn g.edges n ↔ (o, n) ∈ g0.graph.edges := by
    rw [mem_parentsIn, reach_mem_edges (Reach.fastInit n hr hno.1 hf), k5, hs]
    simp [unitS]
  have hnn : (n, n) ∉ g0.graph.edges := fun h => (he _ ((reach_mem_edges hr _).2 h)).2 rfl
  rw [parentsOf_eq hr]
  have hlab : (n = "X" ∧ o = "Y") ∨ (n = "Y" ∧ o = "X") := by
    obtain ⟨h1, h2, h3⟩ := hno
    simp only [unitS, List.mem_cons, List.not_mem_nil, or_false] at h1 h2
    rcases h1 with rfl | rfl <;> rcases h2 with rfl | rfl <;> simp_all
  rcases hlab with ⟨rfl, rfl⟩ | ⟨rfl, rfl⟩
  · by_cases h : ("Y", "X") ∈ g0.graph.edges
    · rw [if_pos (hin.2 h)]; simp [unitS, h, hnn]
    · rw [if_neg (fun h' => h (hin.1 h'))]; simp [unitS, h, hnn]
  · by_cases h : ("X", "Y") ∈ g0.graph.edges
    · rw [if_pos (hin.2 h)]; simp [unitS, h, hnn]
    · rw [if_neg (fun h' => h (hin.1 h'))]; simp [unitS, h, hnn]

/-- The scores of `X` and `Y`. -/
theorem unit_scores {a b : ℚ} (ha : 0 ≤ a) (hb : 0 ≤ b) {τ : ℝ} (hτ : 0 < τ) :
    (∀ g, Evaluated unitS "X" g → famScoreOn (unitT a b) τ 1 "X" g = .ok (if "Y" ∈ parentsIn g.edges "X"
      then qTerm τ 1 0 a + qTerm τ 1 1 b else qTerm τ 1 1 (a + b))) ∧
    (∀ g, Evaluated unitS "Y" g → famScoreOn (unitT a b) τ 1 "Y" g = .ok (qTerm τ 1 1 a + qTerm τ 1 0 b)) := by
  have hU := unitT_uniform ha hb
  refine ⟨fun g hg => ?_, fun g hg => ?_⟩
  · obtain ⟨g0, hr, he, hf⟩ := hg
    rw [uniform_score_closed hU le_rfl hτ 1 (by decide) hr hf, unit_parents (n := "X") (o := "Y") (by decide) hr he hf]
    by_cases h : "Y" ∈ parentsIn g.edges "X"
    · rw [if_pos h, if_pos h]
      have e1 : buildPCombs (["Y"].map (fun _ => 2)) = [[0], [1]] := by decide
      rw [e1]
      simp only [List.map_cons, List.map_nil, List.sum_cons, List.sum_nil]
      rw [unit_famTerm (m := 0) (d := a) (d1 := 0) (by rfl) (by rfl) (by rfl) (by rfl) ((unit_residence a b _ _ _ _ true false (by decide) (by decide)).trans (by simp)) (by rfl),
        unit_famTerm (m := 1) (d := b) (d1 := 0) (by rfl) (by rfl) (by rfl) (by rfl) ((unit_residence a b _ _ _ _ false true (by decide) (by decide)).trans (by simp)) (by rfl), qTerm_zero]
      congr 1; ring
    · rw [if_neg h, if_neg h]
      have e1 : buildPCombs (([] : List Label).map (fun _ => 2)) = [[]] := by decide
      rw [e1]
      simp only [List.map_cons, List.map_nil, List.sum_cons, List.sum_nil]
      rw [unit_famTerm (m := 1) (d := a + b) (d1 := 0) (by rfl) (by rfl) (by rfl) (by rfl) ((unit_residence a b _ _ _ _ true true (by decide) (by decide)).trans (by simp)) (by rfl), qTerm_zero]
      congr 1; ring
  · obtain ⟨g0, hr, he, hf⟩ := hg
    rw [uniform_score_closed hU le_rfl hτ 1 (by decide) hr hf, unit_parents (n := "Y") (o := "X") (by decide) hr he hf]
    by_cases h : "X" ∈ parentsIn g.edges "Y"
    · rw [if_pos h]
      have e1 : buildPCombs (["X"].map (fun _ => 2)) = [[0], [1]] := by decide
      rw [e1]
      simp only [List.map_cons, List.map_nil, List.sum_cons, List.sum_nil]
      rw [unit_famTerm (m := 1) (d := a) (d1 := b) (by rfl) (by rfl) (by rfl) (by rfl) ((unit_residence a b _ _ _ _ true false (by decide) (by decide)).trans (by simp)) ((unit_residence a b _ _ _ _ false true (by decide) (by decide)).trans (by simp)),
        unit_famTerm (m := 0) (d := 0) (d1 := 0) (by rfl) (by rfl) (by rfl) (by rfl) (by rfl) (by rfl), qTerm_zero]
      congr 1; ring
    · rw [if_neg h]
      have e1 : buildPCombs (([] : List Label).map (fun _ => 2)) = [[]] := by decide
      rw [e1]
      simp only [List.map_cons, List.map_nil, List.sum_cons, List.sum_nil]
      rw [unit_famTerm (m := 1) (d := a) (d1 := b) (by rfl) (by rfl) (by rfl) (by rfl) ((unit_residence a b _ _ _ _ true false (by decide) (by decide)).trans (by simp)) ((unit_residence a b _ _ _ _ false true (by decide) (by decide)).trans (by simp))]
      congr 1; ring

/-- The only difference of scores that matters. -/
theorem unit_difference (a b : ℚ) (ha : 0 ≤ a) (hb : 0 ≤ b) {τ : ℝ} (hτ : 0 < τ) :
    (qTerm τ 1 1 (a + b) < qTerm τ 1 0 a + qTerm τ 1 1 b ↔ (τ + a) ^ 2 * (τ + b) ^ 3 < τ ^ 2 * (τ + a + b) ^ 3) ∧
    (qTerm τ 1 0 a + qTerm τ 1 1 b < qTerm τ 1 1 (a + b) ↔ τ ^ 2 * (τ + a + b) ^ 3 < (τ + a) ^ 2 * (τ + b) ^ 3) := by
  have ha' : (0 : ℝ) ≤ a := by exact_mod_cast ha
  have hb' : (0 : ℝ) ≤ b := by exact_mod_cast hb
  have h1 : (0 : ℝ) < τ + a := by positivity
  have h2 : (0 : ℝ) < τ + b := by positivity
  have h3 : (0 : ℝ) < τ + a + b := by positivity
  have e1 : Real.log ((τ + a) ^ 2 * (τ + b) ^ 3) = 2 * Real.log (τ + a) + 3 * Real.log (τ + b) := by
    rw [Real.log_mul (by positivity) (by positivity), Real.log_pow, Real.log_pow]; push_cast; ring
  have e2 : Real.log (τ ^ 2 * (τ + a + b) ^ 3) = 2 * Real.log τ + 3 * Real.log (τ + a + b) := by
    rw [Real.log_mul (by positivity) (by positivity), Real.log_pow, Real.log_pow]; push_cast; ring
  have d : qTerm τ 1 0 a + qTerm τ 1 1 b - qTerm τ 1 1 (a + b) =
      (2 * Real.log τ + 3 * Real.log (τ + a + b)) - (2 * Real.log (τ + a) + 3 * Real.log (τ + b)) := by
    unfold qTerm
    push_cast
    rw [show τ + ((a : ℝ) + b) = τ + a + b by ring]
    norm_num
    ring
  have p1 : (0 : ℝ) < (τ + a) ^ 2 * (τ + b) ^ 3 := by positivity
  have p2 : (0 : ℝ) < τ ^ 2 * (τ + a + b) ^ 3 := by positivity
  rw [← Real.log_lt_log_iff p1 p2, ← Real.log_lt_log_iff p2 p1, e1, e2]
  constructor <;> constructor <;> intro h <;> linarith

/-- An estimator for the two variables without prior knowledge. -/
def unitE : Estimator := Estimator.new unitS

theorem unit_input : SearchInput unitE.struct.cleanEdges [[true, true], [true, true]] [] :=
  ⟨unitS_wf, rfl, rfl, by decide +kernel, by decide⟩

/-- Scores with the ranking of the FamScore on the example: `Y → X` is better by `z`, `X → Y` makes no difference. -/
def unitScore (z : ℤ) (n : Label) (g : NetworkGraph) : Py ℤ := .ok (if n = "X" ∧ "Y" ∈ parentsIn g.edges "X" then z else 0)

theorem unit_ranking {a b : ℚ} (ha : 0 ≤ a) (hb : 0 ≤ b) {τ : ℝ} (hτ : 0 < τ) (z : ℤ)
    (h1 : 0 < z ↔ (τ + a) ^ 2 * (τ + b) ^ 3 < τ ^ 2 * (τ + a + b) ^ 3) (h2 : z < 0 ↔ τ ^ 2 * (τ + a + b) ^ 3 < (τ + a) ^ 2 * (τ + b) ^ 3) :
    ∀ m ∈ unitE.struct.labels, SameRanking unitE.struct.cleanEdges m (famScoreOn (unitT a b) τ 1 m) (unitScore z m) := by
  obtain ⟨hX, hY⟩ := unit_scores ha hb hτ
  obtain ⟨d1, d2⟩ := unit_difference a b ha hb hτ
  intro m hm
  have hm : m = "X" ∨ m = "Y" := by simpa [unitE, Estimator.new, unitS] using hm
  rcases hm with rfl | rfl
  · refine ⟨fun g hg x => by rw [hX g hg]; simp [unitScore], fun g h hg hh p q p' q' hp hq hp' hq' => ?_⟩
    rw [hX g hg] at hp; rw [hX h hh] at hq
    cases hp; cases hq
    simp only [unitScore, true_and, Except.ok.injEq] at hp' hq'
    subst hp' hq'
    by_cases y1 : "Y" ∈ parentsIn g.edges "X" <;> by_cases y2 : "Y" ∈ parentsIn h.edges "X"
    · simp [y1, y2]
    · simp only [y1, y2, if_true, if_false]; rw [d2, h2]
    · simp only [y1, y2, if_true, if_false]; rw [d1, h1]
    · simp [y1, y2]
  · refine ⟨fun g hg x => by rw [hY g hg]; simp [unitScore], fun g h hg hh p q p' q' hp hq hp' hq' => ?_⟩
    rw [hY g hg] at hp; rw [hY h hh] at hq
    cases hp; cases hq
    simp only [unitScore, Except.ok.injEq] at hp' hq'
    subst hp' hq'
    simp

/-- C115 (refuted for a fixed `tau`): with the default hyper-parameters `tau_xu = 0.1`, `alpha_xu = 1`, the same two observations recorded in
a unit a hundred times smaller lose the edge `Y → X`. -/
theorem fixed_tau_depends_on_unit :
    ∃ (s : Structure) (t : Trajectory) (a : SBArgs), UniformData s t 2 ∧ SearchInput s [[true, true], [true, true]] [] ∧
      ∃ rep rep', (estimateStructure (famScoreOn t (1 / 10) 1) [[true, true], [true, true]] (Estimator.new s) a none (fun _ _ => 0) (fun _ _ => 0)).1
          = .ok ({("Y", "X")}, rep) ∧
        (estimateStructure (famScoreOn (rescale 100 t) (1 / 10) 1) [[true, true], [true, true]] (Estimator.new s) a none (fun _ _ => 0)
          (fun _ _ => 0)).1 = .ok (∅, rep') := by
  have hT : rescale 100 (unitT 1 (1 / 100)) = unitT 100 1 := by
    unfold rescale unitT; norm_num
  refine ⟨unitS, unitT 1 (1 / 100), ⟨none, 1, none, none, none, "hill"⟩, unitT_uniform (by norm_num) (by norm_num), unit_input, none, none, ?_, ?_⟩
  · have := estimate_ranking (sc := famScoreOn (unitT 1 (1 / 100)) (1 / 10) 1) (sc' := unitScore 1) (e := unitE)
      (a := ⟨none, 1, none, none, none, "hill"⟩) (order := none) (picks := fun _ _ => 0) (drops := fun _ _ => 0)
      (by simp) unit_input (unit_ranking (by norm_num) (by norm_num) (by norm_num) 1 (by norm_num) (by norm_num))
    rw [show Estimator.new unitS = unitE from rfl, this]
    decide +kernel
  · have := estimate_ranking (sc := famScoreOn (unitT 100 1) (1 / 10) 1) (sc' := unitScore (-1)) (e := unitE)
      (a := ⟨none, 1, none, none, none, "hill"⟩) (order := none) (picks := fun _ _ => 0) (drops := fun _ _ => 0)
      (by simp) unit_input (unit_ranking (by norm_num) (by norm_num) (by norm_num) (-1) (by norm_num) (by norm_num))
    rw [hT, show Estimator.new unitS = unitE from rfl, this]
    decide +kernel

end PyCTBN
