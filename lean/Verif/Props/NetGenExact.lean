import Verif.Props.NetGen

/-! # Exactly which generated networks are right (C110, C111) -/

namespace PyCTBN
open Spec

/-- The assignments listed by a generated CIM set. -/
theorem mem_buildPCombs_swap {p q : Nat} {rest u : List Nat} : u ∈ buildPCombs (p :: q :: rest) ↔ InRangeAssign (q :: p :: rest) u := by
  have h2 : buildPCombs (p :: q :: rest) = meshRest (q :: p :: rest) := buildPCombs_closed _
  rw [h2]
  constructor
  · intro hu
    obtain ⟨r, hr⟩ := List.mem_iff_getElem?.1 hu
    exact (meshRest_getElem?.1 hr).1
  · intro hu
    exact List.mem_iff_getElem?.2 ⟨_, meshRest_getElem?.2 ⟨hu, rfl⟩⟩

/-- **C110** The CIM set `generate_cims` makes for a variable lists every assignment of its parents exactly once and nothing else if and
only if the variable has fewer than two parents or the first two have equally many states. -/
theorem generated_assignments_iff {ng : NetGen} (hn : ng.labels.Nodup) (hv : ng.vals.length = ng.labels.length) {es : List Edge}
    (hes : ∀ e ∈ es, e.1 ∈ ng.labels ∧ e.2 ∈ ng.labels) (hg : ng.graph = some (genGraph ng.labels ng.vals es)) {lo hi : ℚ}
    {draws : NetGen.CimDraws} {ng' : NetGen} (h : ng.generateCims lo hi draws = .ok ng') {i : Nat} {l : Label} {c : Nat}
    (hl : ng.labels[i]? = some l) (hc : ng.vals[i]? = some c) {cards : List Nat}
    (hcards : cards.map Except.ok = (ng.labels.filter (fun p => decide ((p, l) ∈ es))).map (genStruct ng.labels ng.vals es).getStatesNumber)
    (hpos : ∀ p ∈ cards, 0 < p) :
    ∃ L s, ng'.cims = some L ∧ L[i]? = some (l, s) ∧
      ((s.pCombs.Nodup ∧ ∀ a, a ∈ s.pCombs ↔ InRangeAssign cards a) ↔ ∀ p q rest, cards = p :: q :: rest → p = q) := by
  obtain ⟨L, s, k1, k2, -, -, -, k6⟩ := generated_cims_cover_partial hn hv hes hg h hl hc hcards
  obtain ⟨L', k1', -, -, -, -, k6'⟩ := generate_cims_spec hn hv hes hg h
  obtain ⟨s', cards', j1, -, j3, -, j5, -, -⟩ := k6' i l c hl hc
  have hL : L' = L := by rw [k1] at k1'; exact (Option.some.inj k1').symm
  subst hL
  have hs : s' = s := by rw [k2] at j1; exact (congrArg Prod.snd (Option.some.inj j1)).symm
  subst hs
  have hcc : cards' = cards := List.map_injective_iff.2 (fun a b hab => by cases hab; rfl) (j3.trans hcards.symm)
  subst hcc
  refine ⟨L', s', k1, k2, fun hh p q rest heq => ?_, k6⟩
  subst heq
  rw [j5] at hh
  have hp : 0 < p := hpos p (by simp)
  have hq : 0 < q := hpos q (by simp)
  have hz := inRange_swap_zeros (rest := rest) (fun x hx => hpos x (by simp [hx]))
  have hsw : ∀ u, InRangeAssign (q :: p :: rest) u → InRangeAssign (p :: q :: rest) u := fun u hu => (hh.2 u).1 (mem_buildPCombs_swap.2 hu)
  rcases Nat.lt_trichotomy p q with hlt | heq | hgt
  · have := hsw (p :: 0 :: rest.map (fun _ => 0)) (List.Forall₂.cons hlt (List.Forall₂.cons hp hz))
    cases this with | cons h1 _ => omega
  · exact heq
  · have := hsw (0 :: q :: rest.map (fun _ => 0)) (List.Forall₂.cons hq (List.Forall₂.cons hgt hz))
    cases this with | cons _ h2 => cases h2 with | cons h3 _ => omega

/-- **C111** With `0.0001 ≤ min_val ≤ max_val`, the CIMs `generate_cims` makes for a variable are intensity matrices (up to rounding) with
exit intensities in `[min_val, max_val]` if and only if the variable does not have exactly one state: whatever the draws. -/
theorem generated_network_intensity_iff {ng : NetGen} (hn : ng.labels.Nodup) (hv : ng.vals.length = ng.labels.length) {es : List Edge}
    (hes : ∀ e ∈ es, e.1 ∈ ng.labels ∧ e.2 ∈ ng.labels) (hg : ng.graph = some (genGraph ng.labels ng.vals es)) {lo hi : ℚ}
    (h0 : 1 / 10000 ≤ lo) (hle : lo ≤ hi) {draws : NetGen.CimDraws} (hd : UnitDraws draws) {ng' : NetGen}
    (h : ng.generateCims lo hi draws = .ok ng') {i : Nat} {l : Label} {c : Nat} (hl : ng.labels[i]? = some l) (hc : ng.vals[i]? = some c)
    (hpos : ∀ v ∈ ng.vals, 0 < v) :
    ∃ L s, ng'.cims = some L ∧ L[i]? = some (l, s) ∧ ((∀ m ∈ s.cims, NearIntensity lo hi c m.cim) ↔ c ≠ 1) := by
  obtain ⟨L, k1, -, -, -, -, k6⟩ := generate_cims_spec hn hv hes hg h
  obtain ⟨s, cards, j1, j2, j3, j4, j5, j6, j7⟩ := k6 i l c hl hc
  have hcp : 0 < c := hpos c (List.mem_iff_getElem?.2 ⟨i, hc⟩)
  refine ⟨L, s, k1, j1, fun hall h1 => ?_, fun h1 => ?_⟩
  · subst h1
    have hprod : 0 < cards.prod := by
      apply List.prod_pos
      intro p hp
      have : (Except.ok p : Py Nat) ∈ cards.map Except.ok := List.mem_map.2 ⟨p, hp, rfl⟩
      rw [j3] at this
      obtain ⟨x, hx, hxe⟩ := List.mem_map.1 this
      unfold Structure.getStatesNumber at hxe
      have hmem : p ∈ ng.vals := by
        cases hi' : pyIndex (genStruct ng.labels ng.vals es).labels x with
        | error e => rw [hi'] at hxe; cases hxe
        | ok a =>
          rw [hi'] at hxe
          simp only [Except.bind_ok'] at hxe
          unfold pyGet at hxe
          split at hxe
          · rename_i v hv'
            injection hxe with hxe
            subst hxe
            exact List.mem_of_getElem? hv'
          · cases hxe
      exact hpos p hmem
    obtain ⟨m, e1, e2⟩ := j7 0 hprod
    rw [generated_cim_one_state] at e2
    injection e2 with e2
    have hm := hall _ (List.mem_iff_getElem?.2 ⟨0, e1⟩)
    have hsum := hm.sum 0 (by omega)
    simp only [← e2, List.range_one, List.map_cons, List.map_nil, List.sum_cons, List.sum_nil, cell, List.getElem?_cons_zero,
      Option.bind_some, Option.getD_some, add_zero, Nat.cast_one, one_mul] at hsum
    have hu := hd.1 i 0 0
    have hdd : 1 / 10000 ≤ (hi - lo) * draws.u i 0 0 + lo := by
      have := mul_nonneg (sub_nonneg.2 hle) hu.1
      linarith
    have h1 := round4_mono (neg_le_neg hdd)
    have h2 : round4 (-(1 / 10000)) = -(1 / 10000) := by decide +kernel
    rw [h2] at h1
    have := (abs_le.1 hsum).1
    linarith
  · obtain ⟨L', s', a1, a2, a3⟩ := generated_network_intensity_partial hn hv hes hg (by linarith) hle hd h hl hc (by omega)
    have hL : L' = L := by rw [k1] at a1; exact (Option.some.inj a1).symm
    subst hL
    rw [j1] at a2
    have : s' = s := (congrArg Prod.snd (Option.some.inj a2)).symm
    subst this
    exact a3

/-- A network on which the claims fail: parents of 2 and 3 states, and a parent with one state. -/
example : ∃ ng', ((NetGen.new ["X", "Y", "Z", "W"] [2, 3, 2, 1]).install [("X", "Z"), ("Y", "Z"), ("W", "Y")]).generateCims 1 2
    ⟨fun _ _ _ => 1/2, fun _ _ _ _ => 1/2⟩ = .ok ng' :=
  generate_cims_returns (ng := (NetGen.new ["X", "Y", "Z", "W"] [2, 3, 2, 1]).install [("X", "Z"), ("Y", "Z"), ("W", "Y")])
    (es := [("X", "Z"), ("Y", "Z"), ("W", "Y")]) (by decide) rfl (by decide) rfl (fun _ _ _ _ => by norm_num)

example : UnitDraws ⟨fun _ _ _ => 1/2, fun _ _ _ _ => 1/2⟩ := ⟨fun _ _ _ => by norm_num, fun _ _ _ _ => by norm_num⟩

end PyCTBN
