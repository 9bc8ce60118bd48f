import Verif.Props.Ctpc

/-! # What one complete test compares (C36) -/

namespace PyCTBN
open Spec

theorem estFrom_exact {s : Structure} {t : Trajectory} {n : Label} {c : Nat} {ls : List Label} {ps : List Nat}
    (hw : WFStructure s) (ht : DataOK s t) (hn : n ∈ s.labels) (hls : ∀ l ∈ ls, l ∈ s.labels)
    (hcn : s.getStatesNumber n = .ok c) (hc : 0 < c) (hps : Cards s ls ps) (hex : ExactCards c ps) :
    ∃ sofc, estFrom s s.total t n ls = .ok sofc ∧ sofc.cims = sofc.pCombs.map (trueCim s t n c ls) ∧
      ∀ u, u ∈ sofc.pCombs ↔ InRangeAssign ps u := by
  obtain ⟨i, _, hi⟩ := getNodeIndx_mem hw hn
  have his : ∃ is : List Nat, is.map Except.ok = ls.map s.getNodeIndx := by
    clear hps
    induction ls with
    | nil => exact ⟨[], rfl⟩
    | cons l ls ih =>
      obtain ⟨is, h⟩ := ih (fun x hx => hls x (by simp [hx]))
      obtain ⟨j, _, hj⟩ := getNodeIndx_mem hw (hls l (by simp))
      exact ⟨j :: is, by rw [List.map_cons, List.map_cons, h, hj]⟩
  obtain ⟨is, his⟩ := his
  have hp := p_combs_enumeration_partial ps hex.2
  have hpc : buildPCombs ps = (List.range ps.prod).map (digits ps) := by
    apply List.ext_getElem?
    intro r
    rw [List.getElem?_map]
    by_cases hr : r < ps.prod
    · rw [List.getElem?_range hr]
      exact (hp.1 r _).2 (digits_inRange hr)
    · rw [List.getElem?_eq_none (by rw [hp.2.2]; omega), List.getElem?_eq_none (by simpa using hr)]; rfl
  have he : estFrom s s.total t n ls = .ok ⟨n, ps, c, buildPCombs ps, false, List.zipWith Cim.build
      ((List.range ps.prod).map (fun r => (List.range c).map (fun x => residence s t n ls x (digits ps r))))
      ((List.range ps.prod).map (fun r => (List.range c).map (fun x => (List.range c).map (fun x' =>
          if x = x' then ((List.range c).map (fun y => if x = y then 0 else transitions s t n ls x y (digits ps r))).sum
          else transitions s t n ls x x' (digits ps r)))))⟩ := by
    unfold estFrom
    rw [hcn, hi, mapM_of_map_ok hps, mapM_of_map_ok his]
    simp only [Except.bind_ok']
    rw [resTime_exact hw ht hn hls hcn hi hps his hc hex.1, transitions_exact hw ht hn hls hcn hi hps his hc hex.1]
    rfl
  refine ⟨_, he, ?_, ?_⟩
  · simp only [List.zipWith_map, List.zipWith_self, hpc, List.map_map]
    rfl
  · intro u
    simp only
    constructor
    · intro hu
      obtain ⟨r, hr⟩ := List.mem_iff_getElem?.1 hu
      exact ((hp.1 r u).1 hr).1
    · intro hu; exact List.mem_of_getElem? ((hp.1 _ u).2 ⟨hu, rfl⟩)

theorem compareInner_accept {E : CBEnv} {c th : Nat} {cim1 : Cim} {l : List Cim} :
    E.compareInner c th cim1 l = .ok .accept ↔ ∀ cim2 ∈ l, E.twoCim c cim1 cim2 th = .ok .accept := by
  induction l with
  | nil => simp [CBEnv.compareInner]
  | cons a l ih =>
    rw [CBEnv.compareInner]
    cases h : E.twoCim c cim1 a th with
    | error e => simp [h]
    | ok v => cases v <;> simp [h, ih]

theorem compareLoop_accept {E : CBEnv} {c th : Nat} {sofc2 : SetOfCims} {mask : List Bool} {l : List (Cim × List Nat)} :
    E.compareLoop c th sofc2 mask l = .ok .accept ↔
      ∀ x ∈ l, ∃ conds, sofc2.filterCims mask x.2 = .ok conds ∧ ∀ cim2 ∈ conds, E.twoCim c x.1 cim2 th = .ok .accept := by
  induction l with
  | nil => simp [CBEnv.compareLoop]
  | cons a l ih =>
    obtain ⟨cim1, comb⟩ := a
    rw [CBEnv.compareLoop]
    cases h : sofc2.filterCims mask comb with
    | error e => simp [h]
    | ok conds =>
      simp only [Except.bind_ok', List.mem_cons, forall_eq_or_imp, h, Except.ok.injEq, exists_eq_left']
      rw [← compareInner_accept]
      cases h2 : E.compareInner c th cim1 conds with
      | error e => simp
      | ok v => cases v <;> simp [ih]

theorem filterCims_mem {s : SetOfCims} {f : List Nat → Cim} {mask : List Bool} {comb : List Nat} (hc : s.cims = s.pCombs.map f)
    (hlen : ∀ r ∈ s.pCombs, r.length = mask.length) (hcomb : comb.length = mask.count true) (hmask : false ∈ mask) :
    ∃ conds, s.filterCims mask comb = .ok conds ∧
      ∀ x, x ∈ conds ↔ ∃ w ∈ s.pCombs, SetOfCims.maskRow mask w = comb ∧ f w = x := by
  rw [filterCims_exact hcomb]
  split
  · rename_i h
    refine ⟨_, rfl, fun x => ?_⟩
    rw [hc, List.mem_map]
    constructor
    · rintro ⟨w, hw, rfl⟩
      refine ⟨w, hw, ?_, rfl⟩
      have hl := hlen w hw
      cases mask with
      | nil => simp at hmask
      | cons b mask =>
        cases mask with
        | cons b' mask => simp at h
        | nil =>
          simp only [List.mem_singleton] at hmask
          subst hmask
          have : comb = [] := by simpa using hcomb
          subst this
          cases w with
          | nil => simp at hl
          | cons a w =>
            cases w with
            | nil => rfl
            | cons b w => simp at hl
    · rintro ⟨w, hw, _, rfl⟩; exact ⟨w, hw, rfl⟩
  · rename_i h
    rw [if_neg (by simpa using fun r hr => hlen r hr), if_neg (by simpa using hcomb)]
    simp only
    set flat := (s.pCombs.zipIdx.filter (fun p => decide (SetOfCims.maskRow mask p.1 = comb))).map Prod.snd with hflat
    have hmem : ∀ i, i ∈ flat ↔ ∃ w, s.pCombs[i]? = some w ∧ SetOfCims.maskRow mask w = comb := by
      intro i
      simp only [hflat, List.mem_map, List.mem_filter, decide_eq_true_eq]
      constructor
      · rintro ⟨⟨w, j⟩, ⟨h1, h2⟩, rfl⟩
        exact ⟨w, List.mem_zipIdx_iff_getElem?.1 h1, h2⟩
      · rintro ⟨w, h1, h2⟩
        exact ⟨(w, i), ⟨List.mem_zipIdx_iff_getElem?.2 h1, h2⟩, rfl⟩
    refine ⟨flat.map (fun i => f ((s.pCombs[i]?).getD [])), mapM_ok_map (fun i hi => ?_), fun x => ?_⟩
    · obtain ⟨w, h1, _⟩ := (hmem i).1 hi
      rw [pyGet_ok, hc, List.getElem?_map, h1]; rfl
    · rw [List.mem_map]
      constructor
      · rintro ⟨i, hi, rfl⟩
        obtain ⟨w, h1, h2⟩ := (hmem i).1 hi
        exact ⟨w, List.mem_of_getElem? h1, h2, by rw [h1]; rfl⟩
      · rintro ⟨w, hw, h2, rfl⟩
        obtain ⟨i, h1⟩ := List.mem_iff_getElem?.1 hw
        exact ⟨i, (hmem i).2 ⟨w, h1, h2⟩, by rw [h1]; rfl⟩

theorem maskRow_map {α : Type} (l : List Label) (f : Label → Bool) (a : Label → α) :
    SetOfCims.maskRow (l.map f) (l.map a) = (l.filter f).map a := by
  induction l with
  | nil => rfl
  | cons x l ih =>
    rw [List.map_cons, List.map_cons, maskRow_cons, List.filter_cons, ih]
    cases f x <;> rfl

/-- An in-range list of states is the list of states of an assignment. -/
theorem assignment_of_inRange {s : Structure} {ls : List Label} (hnd : ls.Nodup) {ps w : List Nat} (hps : Cards s ls ps)
    (h : InRangeAssign ps w) : ∃ a : Label → Nat, ls.map a = w ∧ ∀ q ∈ ls, ∃ v, s.getStatesNumber q = .ok v ∧ a q < v := by
  induction ls generalizing ps w with
  | nil =>
    simp only [Cards, List.map_nil, List.map_eq_nil_iff] at hps
    subst hps
    cases h
    exact ⟨fun _ => 0, rfl, by simp⟩
  | cons l ls ih =>
    rw [List.nodup_cons] at hnd
    cases ps with
    | nil => simp [Cards] at hps
    | cons p ps =>
      simp only [Cards, List.map_cons, List.cons.injEq] at hps
      cases h with
      | @cons x _ xs _ hx hxs =>
        obtain ⟨a, h1, h2⟩ := ih hnd.2 hps.2 hxs
        refine ⟨fun q => if q = l then x else a q, ?_, ?_⟩
        · rw [List.map_cons, if_pos rfl, ← h1]
          congr 1
          apply List.map_congr_left
          intro q hq
          rw [if_neg (fun h : q = l => hnd.1 (h ▸ hq))]
        · intro q hq
          rcases List.mem_cons.1 hq with rfl | hq
          · exact ⟨p, hps.1.symm, by simpa using hx⟩
          · simp only [if_neg (fun h : q = l => hnd.1 (h ▸ hq))]; exact h2 q hq

theorem inRange_of_assignment {s : Structure} {ls : List Label} {ps : List Nat} (hps : Cards s ls ps) (a : Label → Nat)
    (ha : ∀ q ∈ ls, ∃ v, s.getStatesNumber q = .ok v ∧ a q < v) : InRangeAssign ps (ls.map a) := by
  induction ls generalizing ps with
  | nil => simp only [Cards, List.map_nil, List.map_eq_nil_iff] at hps; subst hps; exact .nil
  | cons l ls ih =>
    cases ps with
    | nil => simp [Cards] at hps
    | cons p ps =>
      simp only [Cards, List.map_cons, List.cons.injEq] at hps
      refine .cons ?_ (ih hps.2 (fun q hq => ha q (by simp [hq])))
      obtain ⟨v, h1, h2⟩ := ha l (by simp)
      rw [h1] at hps
      injection hps.1 with h
      rw [h]; exact h2

theorem vals_map_ok {s : Structure} (hw : WFStructure s) : s.labels.map s.getStatesNumber = s.vals.map Except.ok := by
  apply List.ext_getElem
  · simp [hw.valLen]
  · intro i h1 h2
    simp only [List.length_map] at h1 h2
    rw [List.getElem_map, List.getElem_map]
    unfold Structure.getStatesNumber
    rw [pyIndex_of_mem (List.getElem_mem _), List.Nodup.idxOf_getElem hw.nodup]
    simp [pyGet, h2]

theorem maskRow_ok {α : Type} (m : List Bool) (l : List α) :
    (SetOfCims.maskRow m l).map (Except.ok (ε := PyErr)) = SetOfCims.maskRow m (l.map Except.ok) := by
  induction l generalizing m with
  | nil => rfl
  | cons x l ih =>
    cases m with
    | nil => rfl
    | cons b m =>
      rw [List.map_cons, maskRow_cons, maskRow_cons, ← ih]
      cases b <;> rfl

theorem foldl_mul_prod (l : List Nat) (a : Nat) : l.foldl (fun df v => df * v) a = a * l.prod := by
  induction l generalizing a with
  | nil => simp
  | cons v l ih => rw [List.foldl_cons, ih, List.prod_cons, mul_assoc]

/-- C41: what a complete test passes to the two-CIM test. -/
theorem thumb_exact {E : CBEnv} {p : Label} {S : List Label} (hw : WFStructure E.struct) (c : Nat) {vp : Nat}
    (hp : E.struct.getStatesNumber p = .ok vp) {ps : List Nat} (h : Cards E.struct (ordered E.struct S) ps) :
    E.thumb p S c = .ok (dataSize c vp ps) := by
  have hm : E.masked E.struct.vals S = ps := by
    have hinj : Function.Injective (Except.ok : Nat → Py Nat) := fun a b h => by injection h
    apply List.map_injective_iff.2 hinj
    rw [h]
    unfold CBEnv.masked ordered
    rw [maskRow_ok, ← vals_map_ok hw, maskRow_map]
  unfold CBEnv.thumb dataSize
  split
  · rw [hp, hm]
    simp only [Except.bind_ok', CBEnv.computeThumbValue, foldl_mul_prod, pure, Except.pure]
  · rfl

/-- C36.  A complete test of `p` and `child` given `S`, on an empty cache, answers "independent" iff for every assignment of
states to the variables of `S` and to `p` the two-CIM test accepts the CIM given the states of `S` and the CIM given the
states of `S` and of `p`, both as defined by the data.  Missing: cardinalities the estimation does not handle (C17, C18), for
which the compared CIMs themselves are wrong.  The number passed for the data-size rule is `dataSize`. -/
theorem complete_test_compares_matching_cims_partial {E : CBEnv} {p child : Label} {S : List Label} (ha : E.TestArgs p child S)
    (htot : E.tot = E.struct.total) (hd : DataOK E.struct E.traj) {c : Nat} (hcs : E.struct.getStatesNumber child = .ok c)
    (hc : 0 < c) {ps1 ps2 : List Nat} (h1 : Cards E.struct (ordered E.struct S) ps1)
    (h2 : Cards E.struct (ordered E.struct (p :: S)) ps2) (hx1 : ExactCards c ps1) (hx2 : ExactCards c ps2)
    {vp : Nat} (hp : E.struct.getStatesNumber p = .ok vp) :
    freshVerdict E child c p S = .ok .accept ↔
      ∀ a : Label → Nat, (∀ q, q = p ∨ q ∈ S → ∃ v, E.struct.getStatesNumber q = .ok v ∧ a q < v) →
        E.twoCim c (trueCim E.struct E.traj child c (ordered E.struct S) ((ordered E.struct S).map a))
          (trueCim E.struct E.traj child c (ordered E.struct (p :: S)) ((ordered E.struct (p :: S)).map a))
          (dataSize c vp ps1) = .ok .accept := by
  have hth := thumb_exact ha.wf c hp h1
  have hmo : ∀ (K : List Label), ∀ l ∈ ordered E.struct K, l ∈ E.struct.labels := fun K l hl => (List.mem_filter.1 hl).1
  have hd1 : E.direct child S.toFinset = estFrom E.struct E.struct.total E.traj child (ordered E.struct S) := by
    unfold CBEnv.direct ordered; rw [htot]; congr 1; apply List.filter_congr; intro l _; simp
  have hd2 : E.direct child (p :: S).toFinset = estFrom E.struct E.struct.total E.traj child (ordered E.struct (p :: S)) := by
    unfold CBEnv.direct ordered; rw [htot]; congr 1; apply List.filter_congr; intro l _; simp
  obtain ⟨sofc1, e1, c1, m1⟩ := estFrom_exact ha.wf hd ha.child_mem (hmo S) hcs hc h1 hx1
  obtain ⟨sofc2, e2, c2, m2⟩ := estFrom_exact ha.wf hd ha.child_mem (hmo (p :: S)) hcs hc h2 hx2
  unfold freshVerdict
  rw [CBEnv.verdict_nil ha, CBEnv.pureVerdict, hd1, hd2, e1, e2, hth]
  simp only [Except.bind_ok']
  rw [compareLoop_accept]
  have hmask : E.cimsFilter p S = (ordered E.struct (p :: S)).map (fun l => decide (l ≠ p)) := by
    unfold CBEnv.cimsFilter ordered
    congr 1
    apply List.filter_congr
    intro l _
    simp [or_comm]
  have hord : (ordered E.struct (p :: S)).filter (fun l => decide (l ≠ p)) = ordered E.struct S := by
    unfold ordered
    rw [List.filter_filter]
    apply List.filter_congr
    intro l _
    by_cases hl : l = p
    · subst hl; simp [ha.p_notin]
    · simp [hl]
  have hpin : p ∈ ordered E.struct (p :: S) := List.mem_filter.2 ⟨ha.p_mem, by simp⟩
  have hnd1 : (ordered E.struct S).Nodup := ha.wf.nodup.filter _
  have hnd2 : (ordered E.struct (p :: S)).Nodup := ha.wf.nodup.filter _
  have hlen2 : ∀ w, InRangeAssign ps2 w → w.length = (E.cimsFilter p S).length := by
    intro w hw
    have := hw.length_eq
    have h3 := congrArg List.length h2
    rw [hmask]
    simp only [List.length_map] at h3 ⊢
    omega
  have hcount : (E.cimsFilter p S).count true = (ordered E.struct S).length := by
    rw [hmask, ← hord, List.count_eq_countP, List.countP_map, ← List.countP_eq_length_filter]
    congr 1; funext l; simp
  have hlen1 : ∀ u, InRangeAssign ps1 u → u.length = (E.cimsFilter p S).count true := by
    intro u hu
    have := hu.length_eq
    have h3 := congrArg List.length h1
    rw [hcount]
    simp only [List.length_map] at h3
    omega
  have hfm : false ∈ E.cimsFilter p S := by
    rw [hmask]; exact List.mem_map.2 ⟨p, hpin, by simp⟩
  have hmem1 : ∀ x : Cim × List Nat, x ∈ sofc1.cims.zip sofc1.pCombs ↔
      InRangeAssign ps1 x.2 ∧ x.1 = trueCim E.struct E.traj child c (ordered E.struct S) x.2 := by
    intro x
    rw [c1]
    have : (sofc1.pCombs.map (trueCim E.struct E.traj child c (ordered E.struct S))).zip sofc1.pCombs =
        sofc1.pCombs.map (fun u => (trueCim E.struct E.traj child c (ordered E.struct S) u, u)) := by
      generalize sofc1.pCombs = l
      induction l with
      | nil => rfl
      | cons a l ih => simp [ih]
    rw [this, List.mem_map]
    constructor
    · rintro ⟨u, hu, rfl⟩; exact ⟨(m1 u).1 hu, rfl⟩
    · rintro ⟨hu, hx⟩; exact ⟨x.2, (m1 _).2 hu, by rw [← hx]⟩
  constructor
  · intro h a haa
    have hin1 := inRange_of_assignment h1 a (fun q hq => haa q (Or.inr (by simpa using (List.mem_filter.1 hq).2)))
    have hin2 := inRange_of_assignment h2 a (fun q hq => haa q (by simpa using (List.mem_filter.1 hq).2))
    obtain ⟨conds, k1, k2⟩ := h (trueCim E.struct E.traj child c (ordered E.struct S) ((ordered E.struct S).map a),
      (ordered E.struct S).map a) ((hmem1 _).2 ⟨hin1, rfl⟩)
    obtain ⟨conds', k3, k4⟩ := filterCims_mem (comb := (ordered E.struct S).map a) c2
      (fun r hr => hlen2 r ((m2 r).1 hr)) (hlen1 _ hin1) hfm
    simp only at k1
    rw [k1] at k3; injection k3 with k3; subst k3
    refine k2 _ ((k4 _).2 ⟨(ordered E.struct (p :: S)).map a, (m2 _).2 hin2, ?_, rfl⟩)
    rw [hmask, maskRow_map, hord]
  · intro h x hx
    obtain ⟨hu, hx1⟩ := (hmem1 x).1 hx
    obtain ⟨conds', k3, k4⟩ := filterCims_mem (comb := x.2) c2 (fun r hr => hlen2 r ((m2 r).1 hr)) (hlen1 _ hu) hfm
    refine ⟨conds', k3, fun cim2 hc2 => ?_⟩
    obtain ⟨w, hw, hwm, rfl⟩ := (k4 _).1 hc2
    obtain ⟨a, haw, har⟩ := assignment_of_inRange hnd2 h2 ((m2 w).1 hw)
    rw [hmask, ← haw, maskRow_map, hord] at hwm
    rw [hx1, ← hwm, ← haw]
    refine h a (fun q hq => har q (List.mem_filter.2 ⟨?_, by simpa using hq⟩))
    rcases hq with rfl | hq
    · exact ha.p_mem
    · exact ha.S_mem q hq

namespace Demo
/-- The hypotheses of C36 are met. -/
example : env.TestArgs "B" "A" ["C"] ∧ env.tot = env.struct.total ∧ DataOK env.struct env.traj ∧
    Cards env.struct (ordered env.struct ["C"]) [2] ∧ Cards env.struct (ordered env.struct ["B", "C"]) [2, 2] ∧
    ExactCards 2 [2] ∧ ExactCards 2 [2, 2] ∧ env.struct.getStatesNumber "B" = .ok 2 ∧ dataSize 2 2 [2] = 0 ∧ dataSize 3 2 [2] = 16 := by
  refine ⟨⟨struct3_wf, by decide, by decide, by decide, by decide, by decide, by decide⟩, rfl, ?_, rfl, rfl,
    ⟨by simp, by simp⟩, ⟨by simp, ?_⟩, rfl, rfl, rfl⟩
  swap
  · rintro p q rest ⟨⟩; rfl
  exact dataOK_of_check _ _ struct3_wf rfl rfl (by decide) (by decide) (by decide)
end Demo

end PyCTBN
