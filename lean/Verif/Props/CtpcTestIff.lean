import Verif.Props.CtpcExact

/-! # When complete tests compare the matching CIMs (C36): the exact boundary -/

namespace PyCTBN
open Spec Indep

/-- **C36** (exact boundary) For variables with at least one state each in distinct columns: the complete test of every `p` and `child` given every
separating set `S` answers "independent" exactly if the two-CIM test (whichever it is) accepts, for every assignment of states to `S` and `p`, the CIM
given the states of `S` and the CIM given the states of `S` and of `p`, both as defined by the data -- on every valid data set -- if and only if all
variables have equally many states. -/
theorem complete_test_compares_matching_cims_iff (s : Structure) (hw : WFStructure s) (ho : OwnColumns s) (hpos : PosCards s) :
    (∀ (twoCim : Nat → Cim → Cim → Nat → Py Verdict) (t : Trajectory), DataOK s t →
      ∀ p ∈ s.labels, ∀ child ∈ s.labels, ∀ S : List Label, (∀ q ∈ S, q ∈ s.labels) → p ≠ child → p ∉ S → child ∉ S →
      ∀ (c vp : Nat) (ps : List Nat), s.getStatesNumber child = .ok c → s.getStatesNumber p = .ok vp → Cards s (ordered s S) ps →
        (freshVerdict ⟨s, s.total, t, twoCim⟩ child c p S = .ok .accept ↔
          ∀ a : Label → Nat, (∀ q, q = p ∨ q ∈ S → ∃ v, s.getStatesNumber q = .ok v ∧ a q < v) →
            twoCim c (trueCim s t child c (ordered s S) ((ordered s S).map a))
              (trueCim s t child c (ordered s (p :: S)) ((ordered s (p :: S)).map a)) (dataSize c vp ps) = .ok .accept)) ↔
      ∀ v ∈ s.vals, ∀ w ∈ s.vals, v = w := by
  constructor
  · intro H
    by_contra hne
    push Not at hne
    obtain ⟨c, hc, p, hp, hcp⟩ : ∃ c ∈ s.vals, ∃ p ∈ s.vals, c < p := by
      obtain ⟨v, hv, w, hw', hvw⟩ := hne
      rcases Nat.lt_or_gt_of_ne hvw with h | h
      · exact ⟨v, hv, w, hw', h⟩
      · exact ⟨w, hw', v, hv, h⟩
    have hlab : ∀ v ∈ s.vals, ∃ l ∈ s.labels, s.getStatesNumber l = .ok v := by
      intro v hv
      have : Except.ok v ∈ s.labels.map s.getStatesNumber := by
        rw [vals_map_ok hw]; exact List.mem_map_of_mem hv
      obtain ⟨l, hl, e⟩ := List.mem_map.1 this
      exact ⟨l, hl, e⟩
    obtain ⟨A, hA, hAc⟩ := hlab c hc
    obtain ⟨B, hB, hBp⟩ := hlab p hp
    have hAB : A ≠ B := by rintro rfl; rw [hAc] at hBp; cases hBp; omega
    obtain ⟨i, hi1, hi⟩ := getNodeIndx_mem hw hA
    obtain ⟨j, hj1, hj⟩ := getNodeIndx_mem hw hB
    have hok := twoTop_ok hw ho hpos hA hB hAB hi hj hAc hBp
    have hord : ordered s [] = [] := by unfold ordered; simp
    have h := (H (fun _ _ _ _ => .ok .accept) _ hok B hB A hA [] (by simp) (Ne.symm hAB) (by simp) (by simp) c p [] hAc hBp
      (by rw [hord]; rfl)).2 (fun _ _ => rfl)
    rw [freshVerdict_raises (E := ⟨s, s.total, twoTop s.total i j ((c - 1 : Nat) : ℤ) ((p - 1 : Nat) : ℤ), fun _ _ _ _ => .ok .accept⟩)
      hw ho hpos rfl hA hB hAB hi hj hAc hBp hcp rfl] at h
    cases h
  · intro hu twoCim t ht p hp child hch S hS hne hpS hcS c vp ps hc hvp hps
    have hval : ∀ l ∈ s.labels, s.getStatesNumber l = .ok c := by
      obtain ⟨x, hx, ex⟩ := getStatesNumber_mem hw hch
      rw [hc] at ex
      cases ex
      intro l hl
      obtain ⟨w, hw', e⟩ := getStatesNumber_mem hw hl
      rw [e, hu w hw' c hx]
    have hc0 : 0 < c := by
      obtain ⟨x, hx, ex⟩ := getStatesNumber_mem hw hch
      rw [hc] at ex
      cases ex
      exact hpos c hx
    have hall : ∀ (ls : List Label), (∀ l ∈ ls, l ∈ s.labels) → Cards s ls (List.replicate ls.length c) := by
      intro ls hls
      unfold Cards
      apply List.ext_getElem
      · simp
      · intro k h1 h2
        simp only [List.length_map] at h2
        rw [List.getElem_map, List.getElem_map, List.getElem_replicate, hval _ (hls _ (List.getElem_mem h2))]
    have hex : ∀ k : Nat, ExactCards c (List.replicate k c) := by
      intro k
      refine ⟨fun x hx => .inr (List.mem_replicate.1 hx).2, fun a b rest e => ?_⟩
      have ha : a ∈ List.replicate k c := by rw [e]; simp
      have hb : b ∈ List.replicate k c := by rw [e]; simp
      rw [(List.mem_replicate.1 ha).2, (List.mem_replicate.1 hb).2]
    have hmo : ∀ (K : List Label), ∀ l ∈ ordered s K, l ∈ s.labels := fun K l hl => (List.mem_filter.1 hl).1
    have hps' : ps = List.replicate (ordered s S).length c := by
      have hinj : Function.Injective (Except.ok : Nat → Py Nat) := fun a b h => by injection h
      apply List.map_injective_iff.2 hinj
      rw [hps, hall _ (hmo S)]
    exact complete_test_compares_matching_cims_partial (E := ⟨s, s.total, t, twoCim⟩) ⟨hw, hp, hch, hS, hne, hpS, hcS⟩ rfl ht hc hc0 hps
      (hall _ (hmo (p :: S))) (hps' ▸ hex _) (hex _) hvp

/-- The hypotheses are met by a binary and a three-valued variable (where the condition fails) and by three binary ones (where it holds). -/
example : WFStructure Demo.structMixed2 ∧ OwnColumns Demo.structMixed2 ∧ PosCards Demo.structMixed2 ∧
    ¬ (∀ v ∈ Demo.structMixed2.vals, ∀ w ∈ Demo.structMixed2.vals, v = w) :=
  ⟨⟨by decide, rfl, rfl⟩, ⟨by decide, by decide⟩, by unfold PosCards; decide, by decide⟩
example : WFStructure Demo.struct3 ∧ OwnColumns Demo.struct3 ∧ PosCards Demo.struct3 ∧
    (∀ v ∈ Demo.struct3.vals, ∀ w ∈ Demo.struct3.vals, v = w) :=
  ⟨Demo.struct3_wf, ⟨by decide, by decide⟩, by unfold PosCards; decide, by decide⟩

end PyCTBN
