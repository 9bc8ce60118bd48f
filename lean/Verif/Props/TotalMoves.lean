import Verif.Props.ReturnExact

/-!
# C156: for exactly which cardinalities the total number of transitions is right

Estimation never loses time (C20).  It can lose or invent transitions: a row of slot `q` (see `Props/ReturnExact.lean`) is booked as a
transition from state `q % c`, so a row in which the variable does not move is counted when `q % c` is not its state.
-/

namespace PyCTBN
open Spec

/-- The number of rows after which the variable is in another state than in the row. -/
def Spec.observedChanges (s : Structure) (t : Trajectory) (n : Label) : Nat :=
  (t.rows.filter (fun r => decide (nextOf s r n ≠ some (-1)) && decide (nextOf s r n ≠ stateOf s r n))).length

/-- Sum of the diagonal of a square table. -/
def Spec.diagSum (m : List (List Nat)) : Nat := ((List.range m.length).map (fun x => (entry2 m x x).getD 0)).sum

/-- The total number of transitions reported: the exits from all states, over all CIMs. -/
def Spec.reportedChanges (sofc : SetOfCims) : Nat := (sofc.cims.map (fun m => diagSum m.trans)).sum

theorem sum_moves_row (N c q : Nat) (nx : Option ℤ) (hq : q < N) :
    ∑ q' ∈ Finset.range N, ∑ z ∈ (Finset.range c).erase (q' % c), (decide (q = q') && decide (nx = some (z : ℤ))).toNat
      = ((List.range c).any (fun z => decide (z ≠ q % c) && decide (nx = some (z : ℤ)))).toNat := by
  rw [Finset.sum_eq_single q]
  · cases hA : (List.range c).any (fun z => decide (z ≠ q % c) && decide (nx = some (z : ℤ))) with
    | false =>
      rw [Finset.sum_eq_zero]
      · rfl
      · intro z hz
        rw [Finset.mem_erase, Finset.mem_range] at hz
        have := List.any_eq_false.1 hA z (List.mem_range.2 hz.2)
        simp only [hz.1, ne_eq, not_false_eq_true, decide_true, Bool.true_and] at this
        simp [this]
    | true =>
      obtain ⟨z, hz, h⟩ := List.any_eq_true.1 hA
      rw [List.mem_range] at hz
      simp only [ne_eq, decide_not, Bool.and_eq_true, Bool.not_eq_eq_eq_not, Bool.not_true, decide_eq_false_iff_not,
        decide_eq_true_eq] at h
      rw [Finset.sum_eq_single z]
      · simp [h.2]
      · intro z' _ hne
        have : ¬ ((z : ℤ) = (z' : ℤ)) := fun e => hne (by omega)
        simp [h.2, this]
      · intro hz'
        exact absurd (Finset.mem_erase.2 ⟨h.1, Finset.mem_range.2 hz⟩) hz'
  · intro q' _ hne
    apply Finset.sum_eq_zero
    intro z _
    simp [Ne.symm hne]
  · intro h
    exact absurd (Finset.mem_range.2 hq) h

theorem filter_length_cons {α : Type _} (P : α → Bool) (a : α) (l : List α) : ((a :: l).filter P).length = (P a).toNat + (l.filter P).length := by
  rw [List.filter_cons]
  cases P a
  · simp
  · simp; omega

theorem sum_moves (N c : Nat) (slot : List ℤ → Nat) (nx : List ℤ → Option ℤ) (rows : List (List ℤ)) (h : ∀ r ∈ rows, slot r < N) :
    ∑ q ∈ Finset.range N, ∑ z ∈ (Finset.range c).erase (q % c),
        (rows.filter (fun r => decide (slot r = q) && decide (nx r = some (z : ℤ)))).length
      = (rows.filter (fun r => (List.range c).any (fun z => decide (z ≠ slot r % c) && decide (nx r = some (z : ℤ))))).length := by
  induction rows with
  | nil => simp
  | cons r rows ih =>
    rw [filter_length_cons, ← ih (fun r' hr => h r' (by simp [hr])), ← sum_moves_row N c (slot r) (nx r) (h r (by simp))]
    simp only [filter_length_cons, Finset.sum_add_distrib]

/-- What the code counts: a row of slot `q` whose next state is `y ≠ q % c`. -/
theorem reported_changes_by_slots (s : Structure) (g : NetworkGraph) (hg : Reach s g) (hpos : PosCards s) (n : Label)
    (hn : n ∈ s.labels) (c : Nat) (hcn : s.getStatesNumber n = .ok c) (ps : List Nat)
    (hps : ps.map Except.ok = (parentsOf g n).map s.getStatesNumber) (t : Trajectory) (ht : DataOK s t) (sofc : SetOfCims)
    (h : ParamsEst.estimate t g n = .ok sofc) :
    reportedChanges sofc = (t.rows.filter (fun r => (List.range c).any (fun z =>
      decide (z ≠ slotOf s n (parentsOf g n) ps r % c) && decide (nextOf s r n = some (z : ℤ))))).length := by
  obtain ⟨hI, hs⟩ := hg.inv
  have hw : WFStructure s := hs ▸ hI.cs.toWFStructure
  have hc : 0 < c := by
    obtain ⟨w, hw', e⟩ := getStatesNumber_mem hw hn
    rw [hcn] at e; cases e; exact hpos c hw'
  have hls : ∀ x ∈ parentsOf g n, x ∈ s.labels := fun x hx => hs ▸ mem_parentsOf hx
  have hlt : ∀ r ∈ t.rows, slotOf s n (parentsOf g n) ps r < ps.prod * c := by
    intro r hr
    have := (estimate_returns_on s g hg hpos n hn c hcn ps hps t ht).1 ⟨sofc, h⟩ r hr (natState s r n) ((parentsOf g n).map (natState s r))
      (natState_spec hw ht hr hn hcn).1 (by
        rw [List.map_map]
        apply List.map_congr_left
        intro l hl
        obtain ⟨v, -, hv⟩ := getStatesNumber_mem hw (hls l hl)
        exact (natState_spec hw ht hr (hls l hl) hv).1)
    rw [Nat.mul_comm]; exact this
  obtain ⟨-, q, h2⟩ := estimation_by_slots s g hg hpos n hn c hcn ps hps t ht sofc h
  rw [← sum_moves (ps.prod * c) c (slotOf s n (parentsOf g n) ps) (fun r => nextOf s r n) t.rows hlt]
  unfold reportedChanges
  rw [h2]
  unfold cimsFor
  rw [List.map_map, List.map_map]
  have hd : ∀ r, diagSum ((slotStats s t n (parentsOf g n) ps c r).toCim c (q r)).trans
      = ((List.range c).map (fun x => ∑ z ∈ (Finset.range c).erase ((r * c + x) % c), slotMoves s t n (parentsOf g n) ps (r * c + x) z)).sum := by
    intro r
    unfold diagSum
    simp only [Stats.toCim, List.length_map, List.length_range]
    congr 1
    apply List.map_congr_left
    intro x hx
    have hx := List.mem_range.1 hx
    have hm : (r * c + x) % c = x := by rw [Nat.mul_comm, Nat.mul_add_mod, Nat.mod_eq_of_lt hx]
    rw [hm]
    simp [entry2, hx, slotStats]
  have hf := flatten_map_range c ps.prod hc (fun q => ∑ z ∈ (Finset.range c).erase (q % c), slotMoves s t n (parentsOf g n) ps q z)
  have hf := congrArg List.sum hf
  rw [List.sum_flatten, List.map_map] at hf
  refine Eq.trans ?_ (hf.trans ?_)
  · congr 1
    apply List.map_congr_left
    intro r _
    exact hd r
  · rfl

/-! ## The boundary -/

/-- One row of duration 1 in which every variable `l` is in state `σ l`; the variable `n` is then in state 0, the others are not followed. -/
def stayData (s : Structure) (n : Label) (σ : Label → Nat) : Trajectory :=
  ⟨[1], [(List.range s.total).map (fun k => match s.labels.find? (fun l => decide (s.getNodeIndx l = .ok k)) with
    | some l => (σ l : ℤ)
    | none => 0) ++ (List.range s.total).map (fun k => if s.getNodeIndx n = .ok k then (0 : ℤ) else -1)], s.total + 1⟩

theorem stayData_states {s : Structure} (hw : WFStructure s) (ho : OwnColumns s) {n : Label} (hn : n ∈ s.labels) (σ : Label → Nat) :
    ∀ r ∈ (stayData s n σ).rows, ∀ l ∈ s.labels,
      stateOf s r l = some (σ l : ℤ) ∧ nextOf s r l = some (if l = n then 0 else -1) := by
  intro r hr l hl
  obtain ⟨i, hi1, hi2⟩ := getNodeIndx_mem hw hl
  have hit := ho.lt i hi1
  simp only [stayData, List.mem_singleton] at hr
  subst hr
  rw [stateOf_eq hi2, nextOf_eq hi2]
  constructor
  · rw [List.getElem?_append_left (by simpa using hit), List.getElem?_map, List.getElem?_range hit]
    have hf : s.labels.find? (fun l => decide (s.getNodeIndx l = .ok i)) = some l := by
      cases hx : s.labels.find? (fun l => decide (s.getNodeIndx l = .ok i)) with
      | none => simpa [hi2] using List.find?_eq_none.1 hx l hl
      | some l' =>
        have h1 := List.mem_of_find?_eq_some hx
        have h2 := List.find?_some hx
        rw [indx_inj hw ho.nodup h1 hl (by simpa using h2) hi2]
    simp [hf]
  · rw [List.getElem?_append_right (by simp)]
    simp only [List.length_map, List.length_range, Nat.add_sub_cancel_left, List.getElem?_map, List.getElem?_range hit, Option.map_some,
      Option.some.injEq]
    by_cases hln : l = n
    · subst hln
      simp [hi2]
    · rw [if_neg hln, if_neg]
      intro h
      exact hln (indx_inj hw ho.nodup hl hn hi2 h)

theorem stayData_ok {s : Structure} (hw : WFStructure s) (ho : OwnColumns s) (hpos : PosCards s) {n : Label} (hn : n ∈ s.labels) (σ : Label → Nat)
    (h : ∀ l ∈ s.labels, ∀ v, s.getStatesNumber l = .ok v → σ l < v) : DataOK s (stayData s n σ) := by
  have hst := stayData_states hw ho hn σ
  refine ⟨rfl, rfl, ?_, ho.lt, ?_, ?_⟩
  · intro r hr
    simp only [stayData, List.mem_singleton] at hr
    subst hr
    simp; ring
  · intro r hr l hl v hv
    exact ⟨σ l, (hst r hr l hl).1, h l hl v hv⟩
  · intro r hr l hl v hv
    rw [(hst r hr l hl).2]
    by_cases hln : l = n
    · obtain ⟨w, hw', e⟩ := getStatesNumber_mem hw hl
      rw [hv] at e
      cases e
      exact .inr ⟨0, by simp [hln], hpos v hw'⟩
    · exact .inl (by rw [if_neg hln])

/-- `c` divides every parents' part of a slot once it divides the first cardinality other than 1. -/
theorem dvd_parentSlot {c : Nat} {ps us : List Nat} (hd : ∀ p, ps.find? (fun p => decide (p ≠ 1)) = some p → c ∣ p) (h : InRangeAssign ps us) :
    c ∣ parentSlot ps us := by
  unfold InRangeAssign at h
  induction h with
  | nil => simp [parentSlot]
  | @cons u p us ps hu hrest ih =>
    simp only [parentSlot]
    by_cases hp : p = 1
    · subst hp
      have hu0 : u = 0 := by omega
      rw [hu0, Nat.one_mul, Nat.zero_add]
      exact ih (fun q hq => hd q (by simpa [List.find?_cons] using hq))
    · exact Dvd.dvd.mul_right (hd p (by simp [List.find?_cons, hp])) _

theorem parentSlot_zeros (ps : List Nat) {ls : List Label} (f : Label → Nat) (h : ∀ l ∈ ls, f l = 0) : parentSlot ps (ls.map f) = 0 := by
  induction ls generalizing ps with
  | nil => cases ps <;> rfl
  | cons l ls ih =>
    cases ps with
    | nil => rfl
    | cons p ps => simp only [List.map_cons, parentSlot, h l (by simp), ih ps (fun x hx => h x (by simp [hx]))]; omega

/-- Only the first parent with more than one state is in state 1: the slot is its cardinality. -/
theorem parentSlot_first {f : Label → Nat} {b : Label} {ls : List Label} (hnd : ls.Nodup)
    (hb : ls.find? (fun l => decide (f l ≠ 1)) = some b) : parentSlot (ls.map f) (ls.map (fun l => if l = b then 1 else 0)) = f b := by
  induction ls with
  | nil => cases hb
  | cons l ls ih =>
    rw [List.nodup_cons] at hnd
    rw [List.find?_cons] at hb
    simp only [List.map_cons, parentSlot]
    by_cases hl : f l = 1
    · simp only [hl, ne_eq, not_true_eq_false, decide_false] at hb
      have hne : l ≠ b := by
        rintro rfl
        exact hnd.1 (List.mem_of_find?_eq_some hb)
      rw [ih hnd.2 hb, hl, if_neg hne]; omega
    · simp only [ne_eq, hl, not_false_eq_true, decide_true, Option.some.injEq] at hb
      subst hb
      rw [if_pos rfl, parentSlot_zeros]
      · omega
      · intro x hx
        rw [if_neg]
        rintro rfl
        exact hnd.1 hx

/-- **C156.**  For a node with `c` states: on every well-formed data set on which estimation returns the number of transitions it reports is the number of
rows after which the node's state changes, if and only if `c` divides the cardinality of the node's first parent (in label order) that has other than one state. -/
theorem total_transitions_conserved_iff (s : Structure) (g : NetworkGraph) (hg : Reach s g) (hpos : PosCards s) (ho : OwnColumns s) (n : Label)
    (hn : n ∈ s.labels) (c : Nat) (hcn : s.getStatesNumber n = .ok c) (ps : List Nat)
    (hps : ps.map Except.ok = (parentsOf g n).map s.getStatesNumber) :
    (∀ t, DataOK s t → ∀ sofc, ParamsEst.estimate t g n = .ok sofc → reportedChanges sofc = observedChanges s t n) ↔
      ∀ p, ps.find? (fun p => decide (p ≠ 1)) = some p → c ∣ p := by
  obtain ⟨hI, hs⟩ := hg.inv
  have hw : WFStructure s := hs ▸ hI.cs.toWFStructure
  have hval : ∀ l ∈ s.labels, ∀ v, s.getStatesNumber l = .ok v → 0 < v := by
    intro l hl v hv
    obtain ⟨w, hw', e⟩ := getStatesNumber_mem hw hl
    rw [hv] at e; cases e; exact hpos v hw'
  have hc : 0 < c := hval n hn c hcn
  have hls : ∀ x ∈ parentsOf g n, x ∈ s.labels := fun x hx => hs ▸ mem_parentsOf hx
  constructor
  · intro H p hp
    let f : Label → Nat := fun l => match s.getStatesNumber l with | .ok v => v | .error _ => 0
    have hf : ∀ l ∈ s.labels, s.getStatesNumber l = .ok (f l) := by
      intro l hl
      obtain ⟨v, _, hv⟩ := getStatesNumber_mem hw hl
      simp only [f, hv]
    have hpf : ps = (parentsOf g n).map f := by
      apply List.map_injective_iff.2 (fun _ _ h => Except.ok.inj h : Function.Injective (Except.ok : Nat → Py Nat))
      show ps.map Except.ok = ((parentsOf g n).map f).map Except.ok
      rw [hps, List.map_map]
      exact List.map_congr_left (fun l hl => hf l (hls l hl))
    rw [hpf, List.find?_map] at hp
    obtain ⟨b, hb, rfl⟩ := Option.map_eq_some_iff.1 hp
    have hb' : (parentsOf g n).find? (fun l => decide (f l ≠ 1)) = some b := hb
    have hbp := List.mem_of_find?_eq_some hb
    have hb1 : f b ≠ 1 := by simpa using List.find?_some hb
    have hbl := hls b hbp
    have hb0 : 0 < f b := hval b hbl _ (hf b hbl)
    by_contra hdv
    have hbn : n ≠ b := by
      rintro rfl
      have := hf n hn
      rw [hcn] at this
      cases this
      exact hdv (dvd_refl _)
    have hc1 : c ≠ 1 := by rintro rfl; exact hdv (one_dvd _)
    let σ : Label → Nat := fun l => if l = b then 1 else 0
    have hok : DataOK s (stayData s n σ) := by
      apply stayData_ok hw ho hpos hn
      intro l hl v hv
      by_cases hlb : l = b
      · subst hlb
        have := hf l hl
        rw [hv] at this
        cases this
        simp only [σ, if_true]; omega
      · simp only [σ, if_neg hlb]; exact hval l hl v hv
    have hst := stayData_states hw ho hn σ
    obtain ⟨row, hrow⟩ : ∃ row, (stayData s n σ).rows = [row] := ⟨_, rfl⟩
    have hmem : row ∈ (stayData s n σ).rows := by rw [hrow]; simp
    have hnat : ∀ l ∈ s.labels, natState s row l = σ l := by
      intro l hl
      unfold natState
      rw [(hst row hmem l hl).1]
      simp
    have hslot : slotOf s n (parentsOf g n) ps row = f b := by
      unfold slotOf
      rw [hnat n hn, List.map_congr_left (fun l hl => hnat l (hls l hl)), hpf]
      show (if n = b then 1 else 0) + _ = _
      rw [if_neg hbn, Nat.zero_add]
      exact parentSlot_first (List.Nodup.filter _ (hs ▸ hw.nodup)) hb'
    have hpp : ∀ p ∈ ps, 0 < p := by
      intro p hp
      rw [hpf] at hp
      obtain ⟨l, hl, rfl⟩ := List.mem_map.1 hp
      exact hval l (hls l hl) _ (hf l (hls l hl))
    obtain ⟨sofc, hsofc⟩ : ∃ sofc, ParamsEst.estimate (stayData s n σ) g n = .ok sofc := by
      rw [estimate_returns_on s g hg hpos n hn c hcn ps hps _ hok]
      intro r hr x u hx hu
      have hrr : r = row := by rw [hrow] at hr; simpa using hr
      subst hrr
      have hm : rowMatches s n (parentsOf g n) x u r = true := by simp [rowMatches, hx, hu]
      obtain ⟨q1, q2⟩ := (rowMatches_iff hw hok hr hn hls x u).1 hm
      rw [← q1, ← q2]
      have : slotOf s n (parentsOf g n) ps r < c * ps.prod := by
        rw [hslot]
        have h1 : f b ∣ ps.prod := List.dvd_prod (by rw [hpf]; exact List.mem_map_of_mem hbp)
        have h2 := Nat.le_of_dvd (prod_pos_of_pos hpp) h1
        have h3 : 2 * ps.prod ≤ c * ps.prod := Nat.mul_le_mul_right _ (by omega)
        have := prod_pos_of_pos hpp
        omega
      exact this
    have h1 := H _ hok sofc hsofc
    rw [reported_changes_by_slots s g hg hpos n hn c hcn ps hps _ hok sofc hsofc] at h1
    unfold observedChanges at h1
    rw [hrow, filter_length_cons, filter_length_cons, (hst row hmem n hn).2, (hst row hmem n hn).1, hslot, if_pos rfl] at h1
    have hany : (List.range c).any (fun z => decide (z ≠ f b % c) && decide (some (0 : ℤ) = some (z : ℤ))) = true := by
      rw [List.any_eq_true]
      refine ⟨0, List.mem_range.2 hc, ?_⟩
      have : 0 ≠ f b % c := fun e => hdv (Nat.dvd_of_mod_eq_zero e.symm)
      simp [this]
    rw [hany] at h1
    simp [σ, hbn] at h1
  · intro hd t ht sofc h
    rw [reported_changes_by_slots s g hg hpos n hn c hcn ps hps t ht sofc h]
    unfold observedChanges
    rw [List.filter_congr]
    intro r hr
    have h1 := natState_spec hw ht hr hn hcn
    have h2 : slotOf s n (parentsOf g n) ps r % c = natState s r n := by
      unfold slotOf
      have := dvd_parentSlot hd (inRange_states hw ht hr hls hps)
      rw [Nat.add_mod, Nat.mod_eq_zero_of_dvd this, Nat.add_zero, Nat.mod_mod, Nat.mod_eq_of_lt h1.2]
    rw [h2, h1.1, Bool.eq_iff_iff, List.any_eq_true]
    simp only [List.mem_range, ne_eq, Bool.and_eq_true, decide_eq_true_eq]
    constructor
    · rintro ⟨z, hz, hne, e⟩
      rw [e]
      simp only [Option.some.injEq, Nat.cast_inj]
      exact ⟨by omega, hne⟩
    · rintro ⟨h3, h4⟩
      rcases ht.nxt r hr n hn c hcn with hx | ⟨x, hx, hxc⟩
      · exact absurd hx h3
      · refine ⟨x, hxc, ?_, hx⟩
        rintro rfl
        exact h4 hx

/-- A child with 2 states and a parent with 4: the total is right, although the entries are not (C95). -/
example : ∀ t, DataOK ⟨["X", "Y"], [0, 1], [2, 4], [("Y", "X")], 2⟩ t → ∀ sofc,
    ParamsEst.estimate t (NetworkGraph.new ⟨["X", "Y"], [0, 1], [2, 4], [("Y", "X")], 2⟩) "X" = .ok sofc →
      reportedChanges sofc = observedChanges ⟨["X", "Y"], [0, 1], [2, 4], [("Y", "X")], 2⟩ t "X" :=
  (total_transitions_conserved_iff _ _ (.new ⟨⟨by decide, rfl, rfl⟩, by decide⟩) (by unfold PosCards; decide) ⟨by decide, by decide⟩ "X" (by decide) 2 rfl
    [4] rfl).2 (by simp [List.find?_cons])

/-- A child with 3 states and a binary parent: a row in which the child stays in state 0 while the parent is in state 1 is reported as a transition
from state 2 to state 0. -/
example : (ParamsEst.estimate ⟨[1], [[0, 1, 0, -1]], 3⟩ (NetworkGraph.new ⟨["X", "Y"], [0, 1], [3, 2], [("Y", "X")], 2⟩) "X").map
      (fun sofc => (reportedChanges sofc, sofc.cims.map Cim.trans)) = .ok (1, [[[0, 0, 0], [0, 0, 0], [1, 0, 1]], [[0, 0, 0], [0, 0, 0], [0, 0, 0]]]) ∧
    observedChanges ⟨["X", "Y"], [0, 1], [3, 2], [("Y", "X")], 2⟩ ⟨[1], [[0, 1, 0, -1]], 3⟩ "X" = 0 := by
  constructor <;> decide +kernel

end PyCTBN
