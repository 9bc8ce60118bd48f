import Verif.Props.LongRun
import Verif.Props.SampleFlow
import Verif.Props.RawExact

/-!
# Sampled trajectories as data: what almost every trajectory sampled with real-valued clocks looks like, and what importing it builds
-/

open MeasureTheory ProbabilityTheory Filter
open scoped ENNReal Topology

namespace PyCTBN
open Spec JumpPaths

noncomputable section

/-- A genuine move: of a variable of the network, to one of its states, after a positive time. -/
def GenuineMove (N : Ctbn) (m : Move) : Prop := ∃ v, N.vars[m.var]? = some v ∧ m.target < N.card v ∧ 0 < m.hold

section
variable {net : SampleNet} {N : Ctbn} (hD : Describes net N) (hOK : N.OK)
include hD hOK
variable {U : Type} [MeasurableSpace U] {P : Measure U} [IsProbabilityMeasure P] (C : Categorical U P)

/-- Almost surely `CTBN_Sample(max_tr = n)` makes `n` genuine moves. -/
theorem sampled_moves_genuine (hpos : N.Leaves) (n : Nat) : ∀ᵐ ω ∂drawLaw N.vars.length P, ∃ ms, net.movesR n (drawsAt C ω) net.initClock = .ok ms ∧
    ms.length = n ∧ ∀ m ∈ ms, GenuineMove N m := by
  have hU := usable_inverse hD hOK hpos
  have hm : ∀ L : List MoveEvent, L.length = n → Proper N L → MeasurableSet {ω | MovesAre (net.movesR n (drawsAt (m := N.vars.length) C ω) net.initClock) L} := by
    intro L hl hL; subst hl; exact measurable_moves hD hOK C hL
  have hl : ∀ L : List MoveEvent, L.length = n → Proper N L → drawLaw N.vars.length P {ω | MovesAre (net.movesR n (drawsAt C ω) net.initClock) L}
      = ENNReal.ofReal (jumpLaw N N.inverseRates L (N.vars.map (fun _ => 0))) := by
    intro L hl hL; subst hl; exact sample_moves_law C hD hOK hpos hL
  have hdraw : IsProbabilityMeasure (drawLaw N.vars.length P) := by unfold drawLaw; infer_instance
  have hone := measure_paths hU (zeros_inRange hOK) hm hl
  have hmeas : MeasurableSet (⋃ σ ∈ paths N n, onPath (fun ω => net.movesR n (drawsAt (m := N.vars.length) C ω) net.initClock) σ) :=
    Finset.measurableSet_biUnion _ (fun σ hσ => measurableSet_onPath hm hσ)
  filter_upwards [(mem_ae_iff_prob_eq_one hmeas).2 hone] with ω h4
  simp only [Set.mem_iUnion] at h4
  obtain ⟨σ, hσ, hω⟩ := h4
  simp only [onPath, Set.mem_ofPred_eq, movesAre_events] at hω
  obtain ⟨ms, a1, a2, a3, a4⟩ := hω
  refine ⟨ms, a1, a2, fun m hm => ?_⟩
  obtain ⟨i, hi, rfl⟩ := List.mem_iff_getElem.1 hm
  have h3 := a3 ⟨i, a2 ▸ hi⟩
  have h4 := a4 ⟨i, a2 ▸ hi⟩
  unfold holds at h4
  simp only [List.getElem?_eq_getElem hi, Option.map_some, Option.some.injEq, Prod.mk.injEq, Option.getD_some] at h3 h4
  obtain ⟨v, v1, v2⟩ := mem_steps.1 (Fintype.mem_piFinset.1 hσ ⟨i, a2 ▸ hi⟩)
  exact ⟨v, by rw [h3.1]; exact v1, by rw [h3.2]; exact v2, h4⟩

end

/-- The rows of genuine moves: genuine joint states, in the order of time. -/
theorem rowsOfMoves_valid {N : Ctbn} (hclosed : ∀ vals, N.InRange vals → ∀ m, GenuineMove N m → N.InRange (vals.set m.var m.target)) (ms : List Move)
    (hms : ∀ m ∈ ms, GenuineMove N m) : ∀ (t : ℝ) (vals : List Nat), N.InRange vals →
      (SampleNet.rowsOfMoves t vals ms).length = ms.length + 1 ∧ (∀ r ∈ SampleNet.rowsOfMoves t vals ms, N.InRange r.2 ∧ round4R t ≤ r.1) ∧
      (SampleNet.rowsOfMoves t vals ms).Pairwise (fun a b => a.1 ≤ b.1) := by
  induction ms with
  | nil =>
    intro t vals hr
    simp [SampleNet.rowsOfMoves, hr]
  | cons m ms ih =>
    intro t vals hr
    have hm := hms m (by simp)
    obtain ⟨v, -, -, h0⟩ := hm
    obtain ⟨i1, i2, i3⟩ := ih (fun m' h => hms m' (by simp [h])) (t + m.hold) (vals.set m.var m.target) (hclosed vals hr m (hms m (by simp)))
    have hle : round4R t ≤ round4R (t + m.hold) := round4R_mono (by linarith)
    unfold SampleNet.rowsOfMoves
    refine ⟨by simp [i1], ?_, ?_⟩
    · intro r h
      rcases List.mem_cons.1 h with rfl | h
      · exact ⟨hr, le_rfl⟩
      · exact ⟨(i2 r h).1, hle.trans (i2 r h).2⟩
    · exact List.pairwise_cons.2 ⟨fun r h => hle.trans (i2 r h).2, i3⟩

theorem sampled_durations_nonneg {raw : RawTraj} (h : (raw.map Prod.fst).Pairwise (· ≤ ·)) : ∀ d ∈ durations [raw], 0 ≤ d := by
  intro d hd
  simp only [durations, List.flatMap_cons, List.flatMap_nil, List.append_nil, List.mem_map] at hd
  obtain ⟨p, hp, rfl⟩ := hd
  obtain ⟨i, hi⟩ := List.mem_iff_getElem?.1 hp
  unfold consecutive at hi
  rw [List.getElem?_zip_eq_some, List.getElem?_tail] at hi
  obtain ⟨h1, h2⟩ := hi
  rw [List.pairwise_iff_getElem] at h
  obtain ⟨g1, g1'⟩ := List.getElem?_eq_some_iff.1 h1
  obtain ⟨g2, g2'⟩ := List.getElem?_eq_some_iff.1 h2
  have := h i (i + 1) (by simpa using g1) (by simpa using g2) (by omega)
  simp only [List.getElem_map, g1', g2'] at this
  linarith

theorem transitions_built {vars : List Label} (hnd : vars.Nodup) {cards : List Nat} {es : List Edge} {raws : List RawTraj}
    (hw : ∀ p ∈ raws.flatMap consecutive, p.1.2.length = vars.length ∧ p.2.2.length = vars.length) {n : Label} (hn : n ∈ vars)
    {ps : List Label} (hps : ∀ p ∈ ps, p ∈ vars) (x y : Nat) (u : List Nat) :
    transitions (builtStruct vars cards es) (builtTraj vars raws) n ps x y u = rawTransitions vars raws n ps x y u := by
  unfold transitions rawTransitions
  dsimp only [builtTraj]
  rw [stepRows_eq, List.filter_map, List.length_map]
  congr 1
  apply List.filter_congr
  intro p hp
  dsimp only [Function.comp]
  unfold builtStruct
  rw [rowMatches_step hnd hn hps (hw p hp).1, nextOf_step hnd hn (hw p hp).1]
  rfl

/-- What is needed of rows to use them as data. -/
structure UsableRows (N : Ctbn) (rows : RawTraj) : Prop where
  two : 2 ≤ rows.length
  width : ∀ r ∈ rows, r.2.length = N.vars.length
  range : RawInRange (N.vars.map N.card) [rows]
  times : ∀ d ∈ durations [rows], 0 ≤ d

/-- What is needed of trajectories to use them as data. -/
def UsableData (N : Ctbn) (raws : List RawTraj) : Prop := raws ≠ [] ∧ ∀ r ∈ raws, UsableRows N r

theorem usableData_single {N : Ctbn} {rows : RawTraj} (h : UsableRows N rows) : UsableData N [rows] :=
  ⟨by simp, fun r hr => by rw [List.mem_singleton.1 hr]; exact h⟩

section
variable {net : SampleNet} {N : Ctbn} (hD : Describes net N) (hOK : N.OK)
include hD hOK
variable {U : Type} [MeasurableSpace U] {P : Measure U} [IsProbabilityMeasure P] (C : Categorical U P)

/-- Almost every sampled trajectory is usable as data. -/
theorem sampled_rows_usable (hpos : N.Leaves) {n : Nat} (hn : 1 ≤ n) : ∀ᵐ ω ∂drawLaw N.vars.length P, UsableRows N (sampledRows net C n ω) := by
  filter_upwards [sampled_moves_genuine hD hOK C hpos n] with ω ⟨ms, h1, h2, h3⟩
  have hU := usable_inverse hD hOK hpos
  have e : sampledRows net C n ω = SampleNet.terminate (SampleNet.rowsOfMoves 0 (N.vars.map (fun _ => 0)) ms) := by
    unfold sampledRows SampleNet.sampleR
    rw [h1, ← hD.vnames]
    rfl
  obtain ⟨r1, r2, r3⟩ := rowsOfMoves_valid (N := N) (fun vals hr m ⟨v, v1, v2, _⟩ => hU.closed vals hr ⟨m.var, m.target⟩ (mem_steps.2 ⟨v, v1, v2⟩)) ms h3 0 _
    (zeros_inRange hOK)
  rw [e]
  generalize SampleNet.rowsOfMoves 0 (N.vars.map (fun _ => 0)) ms = rows at *
  rcases List.eq_nil_or_concat rows with rfl | ⟨l, a, rfl⟩
  · simp at r1
  rw [List.concat_eq_append] at *
  have hshape : SampleNet.terminate (l ++ [a]) = l.map (fun r => (r.1, r.2.map (fun x : Nat => (x : ℤ)))) ++ [(a.1, N.vars.map (fun _ => (-1 : ℤ)))] := by
    unfold SampleNet.terminate
    rw [List.dropLast_concat, List.getLast?_concat]
    simp only [Option.toList_some, List.map_cons, List.map_nil, List.append_cancel_left_eq, List.cons.injEq, Prod.mk.injEq, true_and, and_true]
    rw [List.map_const', List.map_const', (r2 a (by simp)).1.1]
  obtain ⟨s1, s2⟩ := shape_in_range hOK hshape (fun r hr => (r2 r (by simp [hr])).1)
  refine ⟨?_, s1, s2, sampled_durations_nonneg ?_⟩
  · rw [hshape]
    simp at r1 ⊢
    omega
  · rw [terminate_times, List.pairwise_map]
    exact r3

omit hD in
/-- Importing usable rows works and builds uniform data with the statistics of the rows. -/
theorem usable_builds (hcl : NoSuffixClash N.vars) (hT : "Time" ∉ N.vars) {c : Nat} (hcard : ∀ v ∈ N.vars, N.card v = c) {raws : List RawTraj} (h : UsableData N raws)
    (es : List Edge) :
    (∃ p : SamplePath, buildFromRaw (raws.map (SampleNet.frame N.vars)) ⟨List.range N.vars.length, N.vars, N.vars.map N.card⟩ es = .ok p ∧
      p.struct = some (builtStruct N.vars (N.vars.map N.card) es) ∧ p.trajectories = some (builtTraj N.vars raws)) ∧
    UniformData (builtStruct N.vars (N.vars.map N.card) es).cleanEdges (builtTraj N.vars raws) c ∧
    ∀ n ∈ N.vars, ∀ L : List Label, (∀ q ∈ L, q ∈ N.vars) → ∀ x u,
      residence (builtStruct N.vars (N.vars.map N.card) es) (builtTraj N.vars raws) n L x u = rawResidence N.vars raws n L x u ∧
      ∀ y, transitions (builtStruct N.vars (N.vars.map N.card) es) (builtTraj N.vars raws) n L x y u = rawTransitions N.vars raws n L x y u := by
  obtain ⟨p, h1, h2, h3, h4⟩ := valid_builds_data hOK hcl hT (samples := raws) (fun r hr => ⟨(h.2 r hr).width, (h.2 r hr).range⟩)
    (by obtain ⟨r, hr⟩ := List.exists_mem_of_ne_nil _ h.1; exact ⟨r, hr, (h.2 r hr).two⟩) es
  have hw : ∀ p ∈ raws.flatMap consecutive, p.1.2.length = N.vars.length ∧ p.2.2.length = N.vars.length := by
    intro p hp
    obtain ⟨r, hr, hp⟩ := List.mem_flatMap.1 hp
    obtain ⟨a, b⟩ := List.of_mem_zip hp
    exact ⟨(h.2 r hr).width _ a, (h.2 r hr).width _ (List.mem_of_mem_tail b)⟩
  refine ⟨⟨p, h1, h2, h3⟩, ⟨⟨hOK.nodup, by simp [builtStruct, Structure.cleanEdges], by simp [builtStruct, Structure.cleanEdges]⟩,
    ⟨h4.origCols, h4.len, h4.width, h4.idx_lt, h4.cur, h4.nxt⟩, ?_, ?_⟩, ?_⟩
  · intro v hv
    obtain ⟨l, hl, rfl⟩ := List.mem_map.1 (show v ∈ N.vars.map N.card from hv)
    exact hcard l hl
  · intro d hd
    change d ∈ durations raws at hd
    unfold durations at hd
    obtain ⟨r, hr, hq⟩ := List.mem_flatMap.1 hd
    refine (h.2 r hr).times _ ?_
    unfold durations
    exact List.mem_flatMap.2 ⟨r, by simp, hq⟩
  · intro n hn L hL x u
    exact ⟨residence_built hOK.nodup hw hn hL x u, fun y => transitions_built hOK.nodup hw hn hL x y u⟩

end

end

end PyCTBN
