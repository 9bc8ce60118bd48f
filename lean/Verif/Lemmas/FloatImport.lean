import Verif.Model.Float
import Verif.Props.Importer

/-!
# Preprocessing with rounded time differences: the same as without, except for the durations
-/

namespace PyCTBN
open Spec

theorem seriesDiffF_shift (rnd : ℚ → ℚ) (ts : List ℚ) (h : ts ≠ []) :
    shiftUp (seriesDiffF rnd (ts.map some)) = (ts.zip ts.tail).map (fun p => some (rnd (p.2 - p.1))) ++ [none] := by
  cases ts with
  | nil => exact absurd rfl h
  | cons a l =>
    have e := seriesDiff_shift (a :: l) (by simp)
    simp only [List.map_cons, seriesDiff, seriesDiffF, shiftUp, List.tail_cons] at e ⊢
    congr 1
    have e' := (List.append_left_inj _).1 e
    rw [← List.map_zipWith, e', List.map_map]
    rfl

/-- With rounded time differences: what preprocessing one frame yields. -/
theorem computeRowDelta_specF (rnd : ℚ → ℚ) {tkey : String} {vars : List Label} {f : Frame} {raw : RawTraj} (h : Holds tkey vars f raw)
    (ht : tkey ∉ vars) (htS : ∀ v ∈ vars, v ++ "S" ≠ tkey) (hu : LastLabelUnique f) :
    ∃ g, computeRowDeltaF rnd f vars (vars.map (· ++ "S")) = .ok g ∧ g.index.length = (consecutive raw).length ∧
      g.col tkey = .ok ((consecutive raw).map (fun p => some (rnd (p.2.1 - p.1.1)))) ∧
      (∀ (i : Nat) (v : Label), vars[i]? = some v →
        g.col (v ++ "S") = .ok ((consecutive raw).map (fun p => cellOf i p.2))) ∧
      (∀ (i : Nat) (v : Label), vars[i]? = some v → (∀ w ∈ vars, w ++ "S" ≠ v) →
        g.col v = .ok ((consecutive raw).map (fun p => cellOf i p.1))) ∧
      (∀ n, n ∈ g.names → n ∈ f.names ∨ ∃ v ∈ vars, n = v ++ "S") := by
  obtain ⟨hrows, hwidth, htime, hstates, hnd⟩ := h
  cases hcols : f.cols with
  | nil => rw [hcols] at htime; cases htime
  | cons p0 rest =>
  obtain ⟨n0, c0⟩ := p0
  rw [hcols] at htime
  simp only [List.head?_cons, Option.some.injEq, Prod.mk.injEq] at htime
  obtain ⟨rfl, rfl⟩ := htime
  set f1 : Frame := ⟨f.index, (n0, shiftUp (seriesDiffF rnd (raw.map (fun smp => some smp.1)))) :: rest⟩ with hf1
  have hcol1 : ∀ m, m ≠ n0 → f1.col m = f.col m := by
    intro m hm
    unfold Frame.col; rw [hf1, hcols]; simp [Ne.symm hm]
  have hcol1t : f1.col n0 = .ok (shiftUp (seriesDiffF rnd (raw.map (fun smp => some smp.1)))) := by
    unfold Frame.col; rw [hf1]; simp
  have hnames1 : f1.names = f.names := by unfold Frame.names; rw [hf1, hcols]; rfl
  have hcs : vars.mapM f1.col = .ok ((List.range vars.length).map (fun i => raw.map (cellOf i))) := by
    have hv : vars = (List.range vars.length).map (fun i : Nat => vars.getD i "") := by
      apply ext_map_range rfl; intro i hi; simp [hi]
    conv_lhs => rw [hv]
    rw [List.mapM_map]
    apply mapM_ok_map
    intro i hi
    have hi' := List.mem_range.1 hi
    have hvi : vars[i]? = some (vars.getD i "") := by simp [hi']
    show f1.col (vars.getD i "") = _
    rw [hcol1 _ (by intro e; exact ht (e ▸ List.mem_of_getElem? hvi)), hstates i _ hvi]
    rfl
  set kvs := (vars.map (· ++ "S")).zip (((List.range vars.length).map (fun i => raw.map (cellOf i))).map
    (fun c => fillInt (shiftUp c))) with hkvs
  set f2 := kvs.foldl (fun f p => f.setCol p.1 p.2) f1 with hf2
  have hkeys : kvs.map Prod.fst = vars.map (· ++ "S") := by
    rw [hkvs, List.map_fst_zip]; simp
  have hres : computeRowDeltaF rnd f vars (vars.map (· ++ "S")) = .ok f2.dropLastLabel := by
    unfold computeRowDeltaF
    rw [hcols]
    simp only [Except.bind_ok']
    rw [← hf1, hcs]
    rfl
  have hidx2 : f2.index = f.index := by rw [hf2, Frame.index_foldl_setCol, hf1]
  -- columns of `f2`
  have h2t : f2.col n0 = .ok (shiftUp (seriesDiffF rnd (raw.map (fun smp => some smp.1)))) := by
    rw [hf2, Frame.col_foldl_of_not_mem _ _ _ (by
      rw [hkeys]; intro h; obtain ⟨v, hv, e⟩ := List.mem_map.1 h; exact htS v hv e), hcol1t]
  have h2s : ∀ (i : Nat) (v : Label), vars[i]? = some v → f2.col (v ++ "S") = .ok (fillInt (shiftUp (raw.map (cellOf i)))) := by
    intro i v hiv
    rw [hf2]
    apply Frame.col_foldl_of_mem
    · intro c' hc'
      obtain ⟨k, hk⟩ := List.mem_iff_getElem?.1 hc'
      rw [hkvs] at hk
      simp only [List.getElem?_zip_eq_some, List.getElem?_map] at hk
      obtain ⟨hk1, hk2⟩ := hk
      cases hvk : vars[k]? with
      | none => rw [hvk] at hk1; cases hk1
      | some w =>
        rw [hvk] at hk1
        simp only [Option.map_some, Option.some.injEq] at hk1
        have hw := append_S_inj hk1
        subst hw
        have hklt := (List.getElem?_eq_some_iff.1 hvk).1
        rw [List.getElem?_range hklt] at hk2
        simp only [Option.map_some, Option.some.injEq] at hk2
        rw [← hk2]
        -- columns of equal variables agree
        have e1 := hstates k w hvk
        have e2 := hstates i w hiv
        rw [e1] at e2
        have e3 : raw.map (cellOf k) = raw.map (cellOf i) := Except.ok.inj e2
        rw [e3]
    · rw [hkeys]; exact List.mem_map_of_mem (List.mem_of_getElem? hiv)
  have h2c : ∀ (i : Nat) (v : Label), vars[i]? = some v → (∀ w ∈ vars, w ++ "S" ≠ v) →
      f2.col v = .ok (raw.map (cellOf i)) := by
    intro i v hiv hno
    rw [hf2, Frame.col_foldl_of_not_mem _ _ _ (by
      rw [hkeys]; intro h; obtain ⟨w, hw, e⟩ := List.mem_map.1 h; exact hno w hw e),
      hcol1 _ (by rintro rfl; exact ht (List.mem_of_getElem? hiv)), hstates i v hiv]
    rfl
  have h2n : ∀ n, n ∈ f2.names → n ∈ f.names ∨ ∃ v ∈ vars, n = v ++ "S" := by
    intro n hn
    by_cases hk : n ∈ vars.map (· ++ "S")
    · obtain ⟨v, hv, e⟩ := List.mem_map.1 hk; exact .inr ⟨v, hv, e.symm⟩
    · left
      obtain ⟨c, hc⟩ := Frame.col_of_mem hn
      rw [hf2, Frame.col_foldl_of_not_mem _ _ _ (by rw [hkeys]; exact hk)] at hc
      rw [← hnames1]; exact Frame.col_ok_mem hc
  refine ⟨_, hres, ?_⟩
  by_cases hraw : raw = []
  · subst hraw
    have hidx : f.index = [] := List.length_eq_zero_iff.1 (by simpa using hrows)
    have hdrop : f2.dropLastLabel = f2 := by unfold Frame.dropLastLabel; rw [hidx2, hidx]; rfl
    rw [hdrop]
    refine ⟨by rw [hidx2, hidx]; rfl, by rw [h2t]; rfl, ?_, ?_, h2n⟩
    · intro i v hv; rw [h2s i v hv]; rfl
    · intro i v hv hno; rw [h2c i v hv hno]; rfl
  · have hpos : 0 < raw.length := List.length_pos_iff.2 hraw
    have hidxne : f.index ≠ [] := by intro e; rw [e] at hrows; simp at hrows; omega
    obtain ⟨pre, l, hpl⟩ : ∃ pre l, f.index = pre ++ [l] := ⟨f.index.dropLast, f.index.getLast hidxne, (List.dropLast_append_getLast hidxne).symm⟩
    have hl := hu pre l hpl
    have hprelen : pre.length + 1 = raw.length := by rw [← hrows, hpl]; simp
    have hlast : f2.index.getLast? = some l := by rw [hidx2, hpl]; simp
    have hdropcol : ∀ n c, f2.col n = .ok c → c.length = raw.length → f2.dropLastLabel.col n = .ok c.dropLast := by
      intro n c hc hlen
      rw [Frame.col_dropLastLabel hlast, hc]
      show Except.ok _ = _
      rw [hidx2, hpl, Frame.keepRows_unique hl (by omega)]
    have hmap : raw.map (fun smp => (some smp.1 : Cell)) = (raw.map Prod.fst).map some := by rw [List.map_map]; rfl
    refine ⟨?_, ?_, ?_, ?_, ?_⟩
    · unfold Frame.dropLastLabel
      rw [hlast]
      dsimp only
      rw [hidx2, hpl, Frame.filter_unique hl, consecutive_length]; omega
    · have e : shiftUp (seriesDiffF rnd (raw.map (fun smp => some smp.1)))
          = (consecutive raw).map (fun p => some (rnd (p.2.1 - p.1.1))) ++ [none] := by
        rw [hmap, seriesDiffF_shift rnd _ (by simpa using hraw), ← List.map_tail, List.zip_map, List.map_map]
        rfl
      rw [hdropcol n0 _ (h2t.trans (by rw [e])) (by simp [consecutive_length]; omega), List.dropLast_concat]
    · intro i v hiv
      have e : fillInt (shiftUp (raw.map (cellOf i))) = (consecutive raw).map (fun p => cellOf i p.2) ++ [some 0] := by
        have hsh : shiftUp (raw.map (cellOf i)) = raw.tail.map (cellOf i) ++ [none] := by
          cases raw with
          | nil => exact absurd rfl hraw
          | cons a l => rfl
        have h3 : (consecutive raw).map (fun p => cellOf i p.2) = raw.tail.map (cellOf i) := by
          rw [← consecutive_snd, List.map_map]; rfl
        rw [hsh, h3]
        unfold fillInt
        rw [List.map_append]
        congr 1
        rw [List.map_map]
        apply List.map_congr_left
        intro smp hsmp
        have hlt : i < smp.2.length := by
          rw [hwidth smp (List.mem_of_mem_tail hsmp)]; exact (List.getElem?_eq_some_iff.1 hiv).1
        simp [cellOf, hlt, truncInt_intCast]
      rw [hdropcol _ _ (h2s i v hiv) (by rw [e]; simp [consecutive_length]; omega), e, List.dropLast_concat]
    · intro i v hiv hno
      rw [hdropcol _ _ (h2c i v hiv hno) (by simp), ← List.map_dropLast, ← consecutive_fst, List.map_map]; rfl
    · intro n hn
      apply h2n
      obtain ⟨c, hc⟩ := Frame.col_of_mem hn
      rw [Frame.col_dropLastLabel hlast] at hc
      cases hx : f2.col n with
      | error e => rw [hx] at hc; cases hc
      | ok c' => exact Frame.col_ok_mem hx

/-- With rounded time differences: what preprocessing a list of frames yields. -/
theorem computeAllDeltas_specF (rnd : ℚ → ℚ) {vars : List Label} (hv : vars ≠ []) (ht : "Time" ∉ vars) {frames : List Frame}
    {raws : List RawTraj} (hne : frames ≠ [])
    (h : List.Forall₂ (fun f raw => Holds "Time" vars f raw ∧ LastLabelUnique f) frames raws) :
    ∃ C, computeAllDeltasF rnd vars frames = .ok C ∧ C.index.length = (raws.flatMap consecutive).length ∧
      C.cols = ("Time", (raws.flatMap consecutive).map (fun p => some (rnd (p.2.1 - p.1.1)))) ::
        (vars.zip ((List.range vars.length).map (fun i => (raws.flatMap consecutive).map (curCell vars i))) ++
        (vars.map (· ++ "S")).zip ((List.range vars.length).map (fun i => (raws.flatMap consecutive).map (fun p => cellOf i p.2)))) := by
  -- process each frame
  have step : ∀ {frames : List Frame} {raws : List RawTraj},
      List.Forall₂ (fun f raw => Holds "Time" vars f raw ∧ LastLabelUnique f) frames raws →
      ∃ gs : List Frame, frames.mapM (fun f => computeRowDeltaF rnd f vars (vars.map (· ++ "S"))) = .ok gs ∧
        List.Forall₂ (fun (g : Frame) raw => g.index.length = (consecutive raw).length ∧
          g.col "Time" = .ok ((consecutive raw).map (fun p => some (rnd (p.2.1 - p.1.1)))) ∧
          (∀ (i : Nat) (v : Label), vars[i]? = some v → g.col (v ++ "S") = .ok ((consecutive raw).map (fun p => cellOf i p.2))) ∧
          (∀ (i : Nat) (v : Label), vars[i]? = some v → g.col v = .ok ((consecutive raw).map (curCell vars i)))) gs raws := by
    intro frames raws h
    induction h with
    | nil => exact ⟨[], rfl, .nil⟩
    | @cons f raw fs rs h _ ih =>
      obtain ⟨gs, e, hgs⟩ := ih
      obtain ⟨g, eg, h1, h2, h3, h4, _⟩ := computeRowDelta_specF rnd h.1 ht (fun v _ => append_S_ne_Time v) h.2
      refine ⟨g :: gs, by rw [List.mapM_cons, eg, e]; rfl, .cons ⟨h1, h2, h3, ?_⟩ hgs⟩
      intro i v hiv
      have hgd : vars.getD i "" = v := by simp [List.getD, hiv]
      unfold curCell
      rw [hgd]
      cases hj : vars.findIdx? (fun w => decide (w ++ "S" = v)) with
      | none =>
        dsimp only
        apply h4 i v hiv
        intro w hw
        have := List.findIdx?_eq_none_iff.1 hj w hw
        simpa using this
      | some j =>
        dsimp only
        obtain ⟨hjlt, hj1, _⟩ := List.findIdx?_eq_some_iff_getElem.1 hj
        simp only [decide_eq_true_eq] at hj1
        have := h3 j _ (List.getElem?_eq_getElem hjlt)
        rw [hj1] at this
        exact this
  obtain ⟨gs, egs, hgs⟩ := step h
  have hgne : gs ≠ [] := by
    rintro rfl
    cases hgs
    cases h
    exact hne rfl
  obtain ⟨C, eC, hCidx, _, hCcol⟩ := Frame.concat_ok hgne
  -- columns of the concatenation
  have hcolC : ∀ (n : String) (G : (ℚ × List ℤ) × (ℚ × List ℤ) → Cell),
      List.Forall₂ (fun (g : Frame) raw => g.col n = .ok ((consecutive raw).map G)) gs raws →
      C.col n = .ok ((raws.flatMap consecutive).map G) := by
    intro n G hG
    have hF : ∀ g ∈ gs, g.col n = .ok (match g.col n with | .ok c => c | .error _ => []) := by
      intro g hg
      have : ∀ {gs : List Frame} {raws : List RawTraj},
          List.Forall₂ (fun (g : Frame) raw => g.col n = .ok ((consecutive raw).map G)) gs raws → g ∈ gs → ∃ c, g.col n = .ok c := by
        intro gs raws h hg
        induction h with
        | nil => simp at hg
        | cons h _ ih =>
          rcases List.mem_cons.1 hg with rfl | hg
          · exact ⟨_, h⟩
          · exact ih hg
      obtain ⟨c, hc⟩ := this hG hg
      rw [hc]
    rw [hCcol n _ hF]
    congr 1
    exact flatMap_cols hG
  have hT : C.col "Time" = .ok ((raws.flatMap consecutive).map (fun p => some (rnd (p.2.1 - p.1.1)))) :=
    hcolC _ _ (hgs.imp (fun _ _ h => h.2.1))
  have hS : (vars.map (· ++ "S")).mapM C.col
      = .ok ((List.range vars.length).map (fun i => (raws.flatMap consecutive).map (fun p => cellOf i p.2))) := by
    rw [List.mapM_map]
    exact mapM_getD (fun i v hiv => hcolC _ _ (hgs.imp (fun _ _ h => h.2.2.1 i v hiv)))
  have hV : vars.mapM C.col = .ok ((List.range vars.length).map (fun i => (raws.flatMap consecutive).map (curCell vars i))) :=
    mapM_getD (fun i v hiv => hcolC _ _ (hgs.imp (fun _ _ h => h.2.2.2 i v hiv)))
  have hlen : C.index.length = (raws.flatMap consecutive).length := by
    rw [hCidx]
    exact flatMap_index (hgs.imp (fun _ _ h => h.1))
  refine ⟨⟨C.index, _ :: (_ ++ _)⟩, ?_, hlen, rfl⟩
  unfold computeAllDeltasF
  rw [if_neg hv]
  dsimp only
  rw [egs]
  simp only [Except.bind_ok']
  rw [eC]
  simp only [Except.bind_ok']
  unfold Frame.select
  rw [List.cons_append, List.mapM_cons, hT, mapM_append_ok hV hS]
  simp only [Except.bind_ok', Except.pure_eq_ok', List.zip_cons_cons]
  rw [List.zip_append (by simp)]

/-- With rounded time differences: delivered arrays for any labels (with or without a suffix clash). -/
theorem delivered_generalF (rnd : ℚ → ℚ) {vars : List Label} (hv : vars ≠ []) (ht : "Time" ∉ vars) {frames : List Frame}
    {raws : List RawTraj} (hne : frames ≠ [])
    (h : List.Forall₂ (fun f raw => Holds "Time" vars f raw ∧ LastLabelUnique f) frames raws) :
    ∃ C, computeAllDeltasF rnd vars frames = .ok C ∧ C.index.length = (stepRows raws).length ∧ C.cols ≠ [] ∧
      buildListOfSamplesArray C = .ok ((durations raws).map rnd, (raws.flatMap consecutive).map (fun p =>
        (List.range vars.length).map (fun i => cellZ (curCell vars i p)) ++ p.2.2)) := by
  obtain ⟨C, hC, hlen, hcols⟩ := computeAllDeltas_specF rnd hv ht hne h
  have hlen2 : (raws.flatMap consecutive).length = (stepRows raws).length := by
    simp [stepRows, List.length_flatMap]
  refine ⟨C, hC, by rw [hlen, hlen2], by rw [hcols]; simp, ?_⟩
  have hz : vars.zip ((List.range vars.length).map (fun i => (raws.flatMap consecutive).map (curCell vars i))) ++
        (vars.map (· ++ "S")).zip ((List.range vars.length).map (fun i => (raws.flatMap consecutive).map (fun p => cellOf i p.2)))
      = (vars ++ vars.map (· ++ "S")).zip (((List.range vars.length).map (fun i => curCell vars i) ++
          (List.range vars.length).map (fun i (p : (ℚ × List ℤ) × (ℚ × List ℤ)) => cellOf i p.2)).map (fun g => (raws.flatMap consecutive).map g)) := by
    rw [← List.zip_append (by simp), List.map_append, List.map_map, List.map_map]; rfl
  rw [hz] at hcols
  have hcurok : ∀ i, i < vars.length → ∀ p ∈ raws.flatMap consecutive, cellInt (curCell vars i p) = .ok (cellZ (curCell vars i p)) := by
    intro i hi p hp
    obtain ⟨w1, w2⟩ := width_of_mem h hp
    unfold curCell
    cases hj : vars.findIdx? (fun w => decide (w ++ "S" = vars.getD i "")) with
    | none => dsimp only; rw [(cellOf_ok hi w1).1, (cellOf_ok hi w1).2]
    | some j =>
      dsimp only
      obtain ⟨hjlt, _, _⟩ := List.findIdx?_eq_some_iff_getElem.1 hj
      rw [(cellOf_ok hjlt w2).1, (cellOf_ok hjlt w2).2]
  rw [buildList_spec (T := fun p => rnd (p.2.1 - p.1.1)) hlen "Time" (by simp) hcols]
  · congr 2
    · simp only [durations, List.map_flatMap, List.map_map]; rfl
    · apply List.map_congr_left
      intro p hp
      obtain ⟨w1, w2⟩ := width_of_mem h hp
      rw [List.map_append, List.map_map, List.map_map]
      congr 1
      symm
      apply ext_map_range w2
      intro i hi
      show p.2.2[i]? = some (cellZ (cellOf i p.2))
      rw [(cellOf_ok hi w2).2]; simp [w2, hi]
  · intro g hg p hp
    obtain ⟨w1, w2⟩ := width_of_mem h hp
    rcases List.mem_append.1 hg with hg | hg
    · obtain ⟨i, hi, rfl⟩ := List.mem_map.1 hg
      exact hcurok i (List.mem_range.1 hi) p hp
    · obtain ⟨i, hi, rfl⟩ := List.mem_map.1 hg
      rw [(cellOf_ok (List.mem_range.1 hi) w2).1, (cellOf_ok (List.mem_range.1 hi) w2).2]

theorem delivered_no_clashF (rnd : ℚ → ℚ) {vars : List Label} (hv : vars ≠ []) (ht : "Time" ∉ vars) (hcl : NoSuffixClash vars)
    {frames : List Frame} {raws : List RawTraj} (hne : frames ≠ [])
    (h : List.Forall₂ (fun f raw => Holds "Time" vars f raw ∧ LastLabelUnique f) frames raws) :
    ∃ C, computeAllDeltasF rnd vars frames = .ok C ∧ C.index.length = (stepRows raws).length ∧ C.cols ≠ [] ∧
      buildListOfSamplesArray C = .ok ((durations raws).map rnd, stepRows raws) := by
  obtain ⟨C, h1, h2, h3, h4⟩ := delivered_generalF rnd hv ht hne h
  refine ⟨C, h1, h2, h3, ?_⟩
  rw [h4]
  congr 2
  unfold stepRows
  rw [← List.map_flatMap]
  apply List.map_congr_left
  intro p hp
  obtain ⟨w1, w2⟩ := width_of_mem h hp
  congr 1
  symm
  apply ext_map_range w1
  intro i hi
  have hno : vars.findIdx? (fun w => decide (w ++ "S" = vars.getD i "")) = none := by
    rw [List.findIdx?_eq_none_iff]
    intro w hw
    have hmem : vars.getD i "" ∈ vars := by
      have : vars[i]? = some (vars.getD i "") := by simp [hi]
      exact List.mem_of_getElem? this
    simp only [decide_eq_false_iff_not]
    intro e
    exact hcl w hw (e ▸ hmem)
  unfold curCell
  rw [hno]
  dsimp only
  rw [(cellOf_ok hi w1).2]; simp [w1, hi]

end PyCTBN
