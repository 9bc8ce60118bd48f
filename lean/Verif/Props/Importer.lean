import Verif.Lemmas.Importer

/-!
# C01 – C07: preprocessing of raw trajectories and the sample path
-/

namespace PyCTBN
open Spec

/-! ## The general form of what is delivered -/

theorem cellOf_ok {n i : Nat} (hi : i < n) {smp : ℚ × List ℤ} (hw : smp.2.length = n) :
    cellInt (cellOf i smp) = .ok (smp.2.getD i 0) ∧ cellZ (cellOf i smp) = smp.2.getD i 0 := by
  have h : smp.2[i]? = some (smp.2.getD i 0) := by simp [hw, hi]
  have h1 : cellInt (cellOf i smp) = .ok (smp.2.getD i 0) := by
    unfold cellOf; rw [h]; simp [cellInt, truncInt_intCast]
  exact ⟨h1, by unfold cellZ; rw [h1]⟩

theorem mem_consecutive {raw : RawTraj} {p} (h : p ∈ consecutive raw) : p.1 ∈ raw ∧ p.2 ∈ raw :=
  ⟨(List.of_mem_zip h).1, List.mem_of_mem_tail (List.of_mem_zip h).2⟩

theorem width_of_mem {vars : List Label} {frames : List Frame} {raws : List RawTraj}
    (h : List.Forall₂ (fun f raw => Holds "Time" vars f raw ∧ LastLabelUnique f) frames raws) {p}
    (hp : p ∈ raws.flatMap consecutive) : p.1.2.length = vars.length ∧ p.2.2.length = vars.length := by
  obtain ⟨raw, hraw, hp⟩ := List.mem_flatMap.1 hp
  have hw : ∀ smp ∈ raw, smp.2.length = vars.length := by
    clear hp; clear hp
    induction h with
    | nil => simp at hraw
    | cons h _ ih =>
      rcases List.mem_cons.1 hraw with rfl | hr
      · exact h.1.width
      · exact ih hr
  exact ⟨hw _ (mem_consecutive hp).1, hw _ (mem_consecutive hp).2⟩

/-- Delivered arrays for any labels (with or without a suffix clash). -/
theorem delivered_general {vars : List Label} (hv : vars ≠ []) (ht : "Time" ∉ vars) {frames : List Frame}
    {raws : List RawTraj} (hne : frames ≠ [])
    (h : List.Forall₂ (fun f raw => Holds "Time" vars f raw ∧ LastLabelUnique f) frames raws) :
    ∃ C, computeAllDeltas vars frames = .ok C ∧ C.index.length = (stepRows raws).length ∧ C.cols ≠ [] ∧
      buildListOfSamplesArray C = .ok (durations raws, (raws.flatMap consecutive).map (fun p =>
        (List.range vars.length).map (fun i => cellZ (curCell vars i p)) ++ p.2.2)) := by
  obtain ⟨C, hC, hlen, hcols⟩ := computeAllDeltas_spec hv ht hne h
  have hlen2 : (raws.flatMap consecutive).length = (stepRows raws).length := by
    simp [stepRows, List.length_flatMap]
  refine ⟨C, hC, by rw [hlen, hlen2], by rw [hcols]; simp, ?_⟩
  have hz : vars.zip ((List.range vars.length).map (fun i => (raws.flatMap consecutive).map (curCell vars i))) ++
        (vars.map (· ++ "S")).zip ((List.range vars.length).map (fun i => (raws.flatMap consecutive).map (fun p => cellOf i p.2)))
      = (vars ++ vars.map (· ++ "S")).zip (((List.range vars.length).map (fun i => curCell vars i) ++
          (List.range vars.length).map (fun i (p : (ℚ × List ℤ) × (ℚ × List ℤ)) => cellOf i p.2)).map (fun g => (raws.flatMap consecutive).map g)) := by
    rw [← List.zip_append (by simp), List.map_append, List.map_map, List.map_map]; rfl
  rw [hz] at hcols
  have hcurok : ∀ i, i < vars.length → ∀ p ∈ raws.flatMap consecutive, cellInt (curCell vars i p) = .ok (cellZ (curCell vars i p)) := by
    intro i hi p hp
    obtain ⟨w1, w2⟩ := width_of_mem h hp
    unfold curCell
    cases hj : vars.findIdx? (fun w => decide (w ++ "S" = vars.getD i "")) with
    | none => dsimp only; rw [(cellOf_ok hi w1).1, (cellOf_ok hi w1).2]
    | some j =>
      dsimp only
      obtain ⟨hjlt, _, _⟩ := List.findIdx?_eq_some_iff_getElem.1 hj
      rw [(cellOf_ok hjlt w2).1, (cellOf_ok hjlt w2).2]
  rw [buildList_spec (T := fun p => p.2.1 - p.1.1) hlen "Time" (by simp) hcols]
  · congr 2
    · simp only [durations, List.map_flatMap]
    · apply List.map_congr_left
      intro p hp
      obtain ⟨w1, w2⟩ := width_of_mem h hp
      rw [List.map_append, List.map_map, List.map_map]
      congr 1
      symm
      apply ext_map_range w2
      intro i hi
      show p.2.2[i]? = some (cellZ (cellOf i p.2))
      rw [(cellOf_ok hi w2).2]; simp [w2, hi]
  · intro g hg p hp
    obtain ⟨w1, w2⟩ := width_of_mem h hp
    rcases List.mem_append.1 hg with hg | hg
    · obtain ⟨i, hi, rfl⟩ := List.mem_map.1 hg
      exact hcurok i (List.mem_range.1 hi) p hp
    · obtain ⟨i, hi, rfl⟩ := List.mem_map.1 hg
      rw [(cellOf_ok (List.mem_range.1 hi) w2).1, (cellOf_ok (List.mem_range.1 hi) w2).2]

theorem delivered_no_clash {vars : List Label} (hv : vars ≠ []) (ht : "Time" ∉ vars) (hcl : NoSuffixClash vars)
    {frames : List Frame} {raws : List RawTraj} (hne : frames ≠ [])
    (h : List.Forall₂ (fun f raw => Holds "Time" vars f raw ∧ LastLabelUnique f) frames raws) :
    ∃ C, computeAllDeltas vars frames = .ok C ∧ C.index.length = (stepRows raws).length ∧ C.cols ≠ [] ∧
      buildListOfSamplesArray C = .ok (durations raws, stepRows raws) := by
  obtain ⟨C, h1, h2, h3, h4⟩ := delivered_general hv ht hne h
  refine ⟨C, h1, h2, h3, ?_⟩
  rw [h4]
  congr 2
  unfold stepRows
  rw [← List.map_flatMap]
  apply List.map_congr_left
  intro p hp
  obtain ⟨w1, w2⟩ := width_of_mem h hp
  congr 1
  symm
  apply ext_map_range w1
  intro i hi
  have hno : vars.findIdx? (fun w => decide (w ++ "S" = vars.getD i "")) = none := by
    rw [List.findIdx?_eq_none_iff]
    intro w hw
    have hmem : vars.getD i "" ∈ vars := by
      have : vars[i]? = some (vars.getD i "") := by simp [hi]
      exact List.mem_of_getElem? this
    simp only [decide_eq_false_iff_not]
    intro e
    exact hcl w hw (e ▸ hmem)
  unfold curCell
  rw [hno]
  dsimp only
  rw [(cellOf_ok hi w1).2]; simp [w1, hi]

/-- Frames whose first one has the header `[Time, v1, …, vn]`. -/
theorem header_facts {vars : List Label} {f : Frame} {raw : RawTraj} (h : Holds "Time" vars f raw)
    (hn : f.names = "Time" :: vars) : "Time" ∉ vars ∧ vars.Nodup := by
  have := h.namesNodup
  rw [hn] at this
  exact ⟨(List.nodup_cons.1 this).1, (List.nodup_cons.1 this).2⟩

/-! ## C01 -/

/-- **C01** For every list of trajectories over variables without a suffix clash, held in frames with header
`[Time, v1, …, vn]` and unique last row labels: both importers succeed, the sorter is the variable list, and the arrays
handed to the estimators are exactly the durations and state pairs of consecutive samples, trajectory by trajectory. -/
theorem preprocessing_yields_consecutive_pairs (vars : List Label) (hv : vars ≠ []) (hcl : NoSuffixClash vars)
    (f₀ : Frame) (rest : List Frame) (raws : List RawTraj) (hhdr : f₀.names = "Time" :: vars)
    (h : List.Forall₂ (fun f raw => Holds "Time" vars f raw ∧ LastLabelUnique f) (f₀ :: rest) raws)
    (vt : VarTable) (es : List Edge) :
    ∃ C, jsonImportData "Time" (f₀ :: rest) vt es = .ok ⟨some C, some vars, some vt, some es⟩ ∧
      sampleImportData (f₀ :: rest) (some vt) (some es) none = .ok ⟨some C, some vars, some vt, some es⟩ ∧
      sampleImportData (f₀ :: rest) (some vt) (some es) (some vars) = .ok ⟨some C, some vars, some vt, some es⟩ ∧
      buildListOfSamplesArray C = .ok (durations raws, stepRows raws) := by
  have hT : "Time" ∉ vars := by
    cases h with
    | cons h0 _ => exact (header_facts h0.1 hhdr).1
  obtain ⟨C, h1, _, _, h4⟩ := delivered_no_clash hv hT hcl (by simp) h
  refine ⟨C, ?_, ?_, ?_, h4⟩
  · unfold jsonImportData jsonSorter
    simp only [pyGet, List.getElem?_cons_zero, Except.bind_ok', hhdr]
    have : pyRemove ("Time" :: vars) "Time" = .ok vars := by simp [pyRemove]
    rw [this]
    simp only [Except.bind_ok', h1]; rfl
  · unfold sampleImportData
    simp only [pyGet, List.getElem?_cons_zero, Except.bind_ok', hhdr, h1]; rfl
  · unfold sampleImportData
    simp only [Except.bind_ok', h1]; rfl

/-- Frame over `X, Y` with three samples, used in the examples. -/
def exFrame : Frame := ⟨[0, 1, 2], [("Time", [some 0, some (1/2), some 2]), ("X", [some 0, some 1, some 1]),
  ("Y", [some 0, some 0, some 2])]⟩
/-- The trajectory held by `exFrame`. -/
def exRaw : RawTraj := [(0, [0, 0]), (1/2, [1, 0]), (2, [1, 2])]

theorem exHolds : Holds "Time" ["X", "Y"] exFrame exRaw where
  rows := rfl
  width := by decide
  time := by decide +kernel
  states := by
    intro i v h
    match i, h with
    | 0, h => simp at h; subst h; decide +kernel
    | 1, h => simp at h; subst h; decide +kernel
  namesNodup := by decide

theorem exLast : LastLabelUnique exFrame := by
  intro pre l h
  have h1 : ([0, 1, 2] : List ℤ).dropLast = pre := by rw [show [0, 1, 2] = pre ++ [l] from h]; simp
  have h2 : ([0, 1, 2] : List ℤ).getLast? = some l := by rw [show [0, 1, 2] = pre ++ [l] from h]; simp
  simp at h1 h2; subst h1 h2; decide

example : NoSuffixClash ["X", "Y"] := by unfold NoSuffixClash; decide
example : durations [exRaw, exRaw] = [1/2, 3/2, 1/2, 3/2] ∧
    stepRows [exRaw, exRaw] = [[0, 0, 1, 0], [1, 0, 1, 2], [0, 0, 1, 0], [1, 0, 1, 2]] := by decide +kernel

/-! ## C02 -/

/-- Duration of a trajectory: last minus first time stamp (0 when it has no samples). -/
def spanOf (raw : RawTraj) : ℚ :=
  match raw.head?, raw.getLast? with
  | some a, some b => b.1 - a.1
  | _, _ => 0

theorem durations_one (raw : RawTraj) : ((consecutive raw).map (fun p => p.2.1 - p.1.1)).sum = spanOf raw := by
  cases raw with
  | nil => rfl
  | cons a l =>
    induction l generalizing a with
    | nil => simp [consecutive, spanOf]
    | cons b l ih =>
      have := ih b
      have e : consecutive (a :: b :: l) = (a, b) :: consecutive (b :: l) := rfl
      rw [e, List.map_cons, List.sum_cons, this]
      unfold spanOf
      simp only [List.head?_cons, List.getLast?_cons_cons]
      cases h : (b :: l).getLast? with
      | none => simp at h
      | some c => dsimp only; ring

/-- **C02** The delivered time deltas add up to the total duration of the trajectories. -/
theorem preprocessing_conserves_time (vars : List Label) (hv : vars ≠ []) (hcl : NoSuffixClash vars)
    (f₀ : Frame) (rest : List Frame) (raws : List RawTraj) (hhdr : f₀.names = "Time" :: vars)
    (h : List.Forall₂ (fun f raw => Holds "Time" vars f raw ∧ LastLabelUnique f) (f₀ :: rest) raws)
    (vt : VarTable) (es : List Edge) :
    ∃ C times rows, jsonImportData "Time" (f₀ :: rest) vt es = .ok ⟨some C, some vars, some vt, some es⟩ ∧
      buildListOfSamplesArray C = .ok (times, rows) ∧ times.sum = (raws.map spanOf).sum := by
  obtain ⟨C, h1, _, _, h4⟩ := preprocessing_yields_consecutive_pairs vars hv hcl f₀ rest raws hhdr h vt es
  refine ⟨C, _, _, h1, h4, ?_⟩
  clear h h1 h4
  induction raws with
  | nil => rfl
  | cons r rs ih =>
    rw [List.map_cons, List.sum_cons, ← ih, ← durations_one]
    unfold durations
    rw [List.flatMap_cons, List.sum_append]

/-! ## C03 -/

/-- **C03** (partial) Two clash-free namings of the same data deliver the same arrays.
Missing: labels of which one is another followed by "S", where it is false (`suffix_clash_overwrites`). -/
theorem naming_independent_partial (vars vars' : List Label) (hv : vars ≠ []) (hv' : vars' ≠ [])
    (hcl : NoSuffixClash vars) (hcl' : NoSuffixClash vars') (f₀ f₀' : Frame) (rest rest' : List Frame) (raws : List RawTraj)
    (hhdr : f₀.names = "Time" :: vars) (hhdr' : f₀'.names = "Time" :: vars')
    (h : List.Forall₂ (fun f raw => Holds "Time" vars f raw ∧ LastLabelUnique f) (f₀ :: rest) raws)
    (h' : List.Forall₂ (fun f raw => Holds "Time" vars' f raw ∧ LastLabelUnique f) (f₀' :: rest') raws)
    (vt vt' : VarTable) (es es' : List Edge) :
    ∃ C C', jsonImportData "Time" (f₀ :: rest) vt es = .ok ⟨some C, some vars, some vt, some es⟩ ∧
      jsonImportData "Time" (f₀' :: rest') vt' es' = .ok ⟨some C', some vars', some vt', some es'⟩ ∧
      buildListOfSamplesArray C = buildListOfSamplesArray C' := by
  obtain ⟨C, h1, _, _, h4⟩ := preprocessing_yields_consecutive_pairs vars hv hcl f₀ rest raws hhdr h vt es
  obtain ⟨C', h1', _, _, h4'⟩ := preprocessing_yields_consecutive_pairs vars' hv' hcl' f₀' rest' raws hhdr' h' vt' es'
  exact ⟨C, C', h1, h1', by rw [h4, h4']⟩

/-- **C03** refuted: whenever a variable `v` and a variable named `v ++ "S"` are both present, then for *all* data the
delivered "current state" of `v ++ "S"` is the *next* state of `v`: its own states are lost. -/
theorem suffix_clash_overwrites (vars : List Label) (f₀ : Frame) (rest : List Frame) (raws : List RawTraj)
    (hhdr : f₀.names = "Time" :: vars)
    (h : List.Forall₂ (fun f raw => Holds "Time" vars f raw ∧ LastLabelUnique f) (f₀ :: rest) raws)
    (v : Label) (i j : Nat) (hi : vars[i]? = some v) (hj : vars[j]? = some (v ++ "S")) (vt : VarTable) (es : List Edge) :
    ∃ C times rows, jsonImportData "Time" (f₀ :: rest) vt es = .ok ⟨some C, some vars, some vt, some es⟩ ∧
      buildListOfSamplesArray C = .ok (times, rows) ∧ rows.length = (stepRows raws).length ∧
      ∀ row ∈ rows, row[j]? = row[vars.length + i]? ∧ ∃ z, row[j]? = some z := by
  have hTn : "Time" ∉ vars ∧ vars.Nodup := by
    cases h with
    | cons h0 _ => exact header_facts h0.1 hhdr
  have hv : vars ≠ [] := by rintro rfl; simp at hi
  obtain ⟨C, h1, h2, _, h4⟩ := delivered_general hv hTn.1 (by simp) h
  refine ⟨C, _, _, ?_, h4, ?_, ?_⟩
  · unfold jsonImportData jsonSorter
    simp only [pyGet, List.getElem?_cons_zero, Except.bind_ok', hhdr]
    have : pyRemove ("Time" :: vars) "Time" = .ok vars := by simp [pyRemove]
    rw [this]
    simp only [Except.bind_ok', h1]; rfl
  · simp [stepRows, List.length_flatMap]
  · intro row hrow
    obtain ⟨p, hp, rfl⟩ := List.mem_map.1 hrow
    obtain ⟨w1, w2⟩ := width_of_mem h hp
    have hilt := (List.getElem?_eq_some_iff.1 hi).1
    have hjlt := (List.getElem?_eq_some_iff.1 hj).1
    have hf : vars.findIdx? (fun w => decide (w ++ "S" = vars.getD j "")) = some i := by
      have hjd : vars.getD j "" = v ++ "S" := by simp [List.getD, hj]
      rw [hjd, List.findIdx?_eq_some_iff_getElem]
      have hiv : vars[i] = v := (List.getElem?_eq_some_iff.1 hi).2
      refine ⟨hilt, by simp [hiv], ?_⟩
      intro k hk
      simp only [decide_eq_true_eq]
      intro e
      have := append_S_inj e
      have hki : k = i := (hTn.2.getElem_inj_iff (hi := by omega) (hj := hilt)).1 (this.trans hiv.symm)
      omega
    have hL : ((List.range vars.length).map (fun i => cellZ (curCell vars i p)) ++ p.2.2)[j]? = some (p.2.2.getD i 0) := by
      rw [List.getElem?_append_left (by simpa using hjlt), List.getElem?_map, List.getElem?_range hjlt]
      simp only [Option.map_some, Option.some.injEq]
      unfold curCell
      rw [hf]
      exact (cellOf_ok hilt w2).2
    refine ⟨?_, _, hL⟩
    rw [hL, List.getElem?_append_right (by simp)]
    simp [w2, hilt]

/-- A concrete clash: `X` and `XS`; the sample (X=0, XS=1) → (X=0, XS=1) is delivered with XS = 0. -/
theorem suffix_clash_example :
    ∃ (C : Frame) (imp : Importer),
      jsonImportData "Time" [⟨[0, 1], [("Time", [some 0, some 1]), ("X", [some 0, some 0]), ("XS", [some 1, some 1])]⟩]
        ⟨[0, 1], ["X", "XS"], [2, 2]⟩ [] = .ok imp ∧ imp.concatenated = some C ∧
      buildListOfSamplesArray C = .ok ([1], [[0, 0, 0, 1]]) ∧
      stepRows [[(0, [0, 1]), (1, [0, 1])]] = [[0, 1, 0, 1]] := by
  refine ⟨⟨[0], [("Time", [some 1]), ("X", [some 0]), ("XS", [some 0]), ("XS", [some 0]), ("XSS", [some 1])]⟩,
    ⟨_, some ["X", "XS"], some ⟨[0, 1], ["X", "XS"], [2, 2]⟩, some []⟩, ?_, rfl, ?_, ?_⟩
  · decide +kernel
  · decide +kernel
  · decide +kernel

/-! ## C04 -/

/-- **C04** refuted, first half: when no column is called `Time`, the import fails whatever the configured time key. -/
theorem other_time_key_never_imports (timeKey : String) (frames : List Frame) (vt : VarTable) (es : List Edge)
    (hn : ∀ f ∈ frames, "Time" ∉ f.names) (imp : Importer) : jsonImportData timeKey frames vt es ≠ .ok imp := by
  intro h
  unfold jsonImportData at h
  cases h1 : pyGet frames 0 with
  | error e => rw [h1] at h; cases h
  | ok f0 =>
  rw [h1] at h
  simp only [Except.bind_ok'] at h
  cases h2 : jsonSorter timeKey f0 with
  | error e => rw [h2] at h; cases h
  | ok vars =>
  rw [h2] at h
  simp only [Except.bind_ok'] at h
  have : ∀ C, computeAllDeltas vars frames ≠ .ok C := by
    intro C hC
    unfold computeAllDeltas at hC
    split at hC
    · cases hC
    dsimp only at hC
    cases h3 : frames.mapM (fun f => computeRowDelta f vars (vars.map (· ++ "S"))) with
    | error e => rw [h3] at hC; cases hC
    | ok gs =>
    rw [h3] at hC
    simp only [Except.bind_ok'] at hC
    cases h5 : Frame.concat gs with
    | error e => rw [h5] at hC; cases hC
    | ok D =>
    rw [h5] at hC
    simp only [Except.bind_ok', Frame.select, List.cons_append, List.mapM_cons] at hC
    have hgs : ∀ {frames : List Frame} {gs : List Frame}, (∀ f ∈ frames, "Time" ∉ f.names) →
        frames.mapM (fun f => computeRowDelta f vars (vars.map (· ++ "S"))) = .ok gs → ∀ g ∈ gs, "Time" ∉ g.names := by
      intro frames
      induction frames with
      | nil => intro gs _ h g hg; cases h; simp at hg
      | cons f fs ih =>
        intro gs hn h g hg
        rw [List.mapM_cons] at h
        cases hf : computeRowDelta f vars (vars.map (· ++ "S")) with
        | error e => rw [hf] at h; cases h
        | ok g0 =>
        rw [hf] at h
        simp only [Except.bind_ok'] at h
        cases hfs : fs.mapM (fun f => computeRowDelta f vars (vars.map (· ++ "S"))) with
        | error e => rw [hfs] at h; cases h
        | ok gs0 =>
        rw [hfs] at h
        simp only [Except.bind_ok', Except.pure_eq_ok', Except.ok.injEq] at h
        subst h
        rcases List.mem_cons.1 hg with rfl | hg
        · -- one frame
          unfold computeRowDelta at hf
          cases hc : f.cols with
          | nil => rw [hc] at hf; cases hf
          | cons p0 r =>
          obtain ⟨n0, c0⟩ := p0
          rw [hc] at hf
          simp only [Except.bind_ok'] at hf
          set f1 : Frame := ⟨f.index, (n0, shiftUp (seriesDiff c0)) :: r⟩ with hf1
          cases hm : vars.mapM f1.col with
          | error e => rw [hm] at hf; cases hf
          | ok cs =>
          rw [hm] at hf
          simp only [Except.bind_ok', Except.pure_eq_ok', Except.ok.injEq] at hf
          have hnm : f1.names = f.names := by unfold Frame.names; rw [hf1, hc]; rfl
          intro hT
          have hT1 : f1.col "Time" = .error .keyError := Frame.col_of_not_mem (hnm ▸ hn f (by simp))
          set kvs := (vars.map (· ++ "S")).zip (cs.map (fun c => fillInt (shiftUp c)))
          have hT2 : (kvs.foldl (fun f p => f.setCol p.1 p.2) f1).col "Time" = .error .keyError := by
            rw [Frame.col_foldl_of_not_mem, hT1]
            intro hmem
            obtain ⟨q, hq, e⟩ := List.mem_map.1 hmem
            obtain ⟨w, _, e2⟩ := List.mem_map.1 (List.of_mem_zip hq).1
            exact append_S_ne_Time w (e2.trans e)
          obtain ⟨c, hcT⟩ := Frame.col_of_mem hT
          rw [← hf] at hcT
          cases hl : (kvs.foldl (fun f p => f.setCol p.1 p.2) f1).index.getLast? with
          | none =>
            unfold Frame.dropLastLabel at hcT
            rw [hl] at hcT
            dsimp only at hcT
            rw [hT2] at hcT; cases hcT
          | some l => rw [Frame.col_dropLastLabel hl, hT2] at hcT; cases hcT
        · exact ih (fun f hf => hn f (by simp [hf])) hfs g hg
    have hgne : gs ≠ [] := by rintro rfl; cases h5
    obtain ⟨D', hD', _, hnone, _⟩ := Frame.concat_ok hgne
    rw [h5] at hD'; cases hD'
    rw [hnone "Time" (hgs hn h3)] at hC
    cases hC
  cases h3 : computeAllDeltas vars frames with
  | error e => rw [h3] at h; cases h
  | ok C => exact this C h3

/-- **C04** refuted, second half: the right key, but not in the first column. No error is raised; the first variable is
differenced instead of the time stamps, which are delivered as if they were durations. -/
theorem time_not_first_example :
    ∃ (C : Frame) (imp : Importer),
      jsonImportData "Time" [⟨[0, 1, 2], [("X", [some 0, some 1, some 0]), ("Time", [some 5, some 6, some 8])]⟩]
        ⟨[0], ["X"], [2]⟩ [] = .ok imp ∧ imp.concatenated = some C ∧
      buildListOfSamplesArray C = .ok ([5, 6], [[1, -1], [-1, 0]]) ∧
      durations [[(5, [0]), (6, [1]), (8, [0])]] = [1, 2] := by
  refine ⟨⟨[0, 1], [("Time", [some 5, some 6]), ("X", [some 1, some (-1)]), ("XS", [some (-1), some 0])]⟩,
    ⟨_, some ["X"], some ⟨[0], ["X"], [2]⟩, some []⟩, ?_, rfl, ?_, ?_⟩
  · decide +kernel
  · decide +kernel
  · decide +kernel

/-- **C04** (partial) With time key `Time` naming the first column of every frame, that column is the time column, whatever
the order of the other columns in later frames. (This is C01 for the JSON importer.)
Missing: every other key and every other position, where it is false. -/
theorem time_key_first_column_partial (vars : List Label) (hv : vars ≠ []) (hcl : NoSuffixClash vars)
    (f₀ : Frame) (rest : List Frame) (raws : List RawTraj) (hhdr : f₀.names = "Time" :: vars)
    (h : List.Forall₂ (fun f raw => Holds "Time" vars f raw ∧ LastLabelUnique f) (f₀ :: rest) raws)
    (vt : VarTable) (es : List Edge) :
    ∃ C rows, jsonImportData "Time" (f₀ :: rest) vt es = .ok ⟨some C, some vars, some vt, some es⟩ ∧
      buildListOfSamplesArray C = .ok (durations raws, rows) := by
  obtain ⟨C, h1, _, _, h4⟩ := preprocessing_yields_consecutive_pairs vars hv hcl f₀ rest raws hhdr h vt es
  exact ⟨C, _, h1, h4⟩

/-! ## C05 -/

/-- **C05** (partial) If the label of the last row is not repeated, processing keeps every other row: the processed
frame has exactly the row labels of the original without the last one.
Missing: repeated labels, where more rows are dropped (`repeated_label_drops_more`). -/
theorem only_last_row_dropped_partial (f : Frame) (pre : List ℤ) (l : ℤ) (hidx : f.index = pre ++ [l]) (hl : l ∉ pre)
    (header : List String) (hc : f.cols ≠ []) (hh : ∀ v ∈ header, v ∈ f.names) :
    ∃ g, computeRowDelta f header (header.map (· ++ "S")) = .ok g ∧ g.index = pre := by
  cases hcols : f.cols with
  | nil => exact absurd hcols hc
  | cons p0 r =>
  obtain ⟨n0, c0⟩ := p0
  set f1 : Frame := ⟨f.index, (n0, shiftUp (seriesDiff c0)) :: r⟩ with hf1
  have hnm : f1.names = f.names := by unfold Frame.names; rw [hf1, hcols]; rfl
  have hm : ∃ cs, header.mapM f1.col = .ok cs := by
    clear hl hidx
    induction header with
    | nil => exact ⟨[], rfl⟩
    | cons v vs ih =>
      obtain ⟨cs, hcs⟩ := ih (fun w hw => hh w (by simp [hw]))
      obtain ⟨c, hcv⟩ := Frame.col_of_mem (f := f1) (hnm ▸ hh v (by simp))
      exact ⟨c :: cs, by rw [List.mapM_cons, hcv, hcs]; rfl⟩
  obtain ⟨cs, hcs⟩ := hm
  refine ⟨(((header.map (· ++ "S")).zip (cs.map (fun c => fillInt (shiftUp c)))).foldl
    (fun f p => f.setCol p.1 p.2) f1).dropLastLabel, ?_, ?_⟩
  · unfold computeRowDelta
    rw [hcols]
    simp only [Except.bind_ok']
    rw [← hf1, hcs]; rfl
  · unfold Frame.dropLastLabel
    rw [Frame.index_foldl_setCol]
    have : f1.index = pre ++ [l] := hidx
    rw [this]
    simp only [List.getLast?_append, List.getLast?_singleton, Option.some_or]
    exact Frame.filter_unique hl

/-- **C05** refuted: with row labels `[0, 1, 0]` (for instance two frames glued together by the caller) the first row is
dropped together with the last one, and with it the observed transition and half of the observed time. -/
theorem repeated_label_drops_more :
    computeRowDelta ⟨[0, 1, 0], [("Time", [some 0, some 1, some 2]), ("X", [some 0, some 1, some 0])]⟩ ["X"] ["XS"]
      = .ok ⟨[1], [("Time", [some 1]), ("X", [some 1]), ("XS", [some 0])]⟩ := by decide +kernel

/-- **C05**, exact description for any labels: the surviving rows are those whose label differs from the last one's, and
every column other than the first and the added ones keeps exactly the cells of those rows. -/
theorem rows_with_last_label_dropped (f g : Frame) (header shifted : List String) (l : ℤ)
    (hl : f.index.getLast? = some l) (h : computeRowDelta f header shifted = .ok g) :
    g.index = f.index.filter (fun x => decide (x ≠ l)) ∧
    ∀ (n : String) (c : List Cell), n ∉ shifted → f.names.head? ≠ some n → f.col n = .ok c →
      g.col n = .ok (((f.index.zip c).filter (fun q => decide (q.1 ≠ l))).map Prod.snd) := by
  unfold computeRowDelta at h
  cases hc : f.cols with
  | nil => rw [hc] at h; cases h
  | cons p0 r =>
  obtain ⟨n0, c0⟩ := p0
  rw [hc] at h
  simp only [Except.bind_ok'] at h
  cases hm : header.mapM (⟨f.index, (n0, shiftUp (seriesDiff c0)) :: r⟩ : Frame).col with
  | error e => rw [hm] at h; cases h
  | ok cs =>
  rw [hm] at h
  simp only [Except.bind_ok', Except.pure_eq_ok', Except.ok.injEq] at h
  constructor
  · rw [← h]
    unfold Frame.dropLastLabel
    rw [Frame.index_foldl_setCol]
    dsimp only
    rw [hl]
  · intro n c hn hne hcol
    have hl2 : ((shifted.zip (cs.map (fun c => fillInt (shiftUp c)))).foldl (fun f p => f.setCol p.1 p.2)
        (⟨f.index, (n0, shiftUp (seriesDiff c0)) :: r⟩ : Frame)).index.getLast? = some l := by
      rw [Frame.index_foldl_setCol]; exact hl
    have hn0 : n0 ≠ n := by
      rintro rfl; apply hne; unfold Frame.names; rw [hc]; rfl
    rw [← h, Frame.col_dropLastLabel hl2, Frame.index_foldl_setCol, Frame.col_foldl_of_not_mem]
    · have : (⟨f.index, (n0, shiftUp (seriesDiff c0)) :: r⟩ : Frame).col n = f.col n := by
        unfold Frame.col; rw [hc]; simp [hn0]
      rw [this, hcol]; rfl
    · intro hmem
      obtain ⟨q, hq, e⟩ := List.mem_map.1 hmem
      exact hn (e ▸ (List.of_mem_zip hq).1)

/-! ## C06, C07 -/

/-- **C06** `build_structure` succeeds exactly when the data columns and the variables table list the same labels in the
same order; then each label keeps its cardinality and row index, the edges are the given ones, and nothing else of the
sample path changes. Otherwise it raises `RuntimeError`. -/
theorem build_structure_checks_order (p : SamplePath) (vt : VarTable) (hvt : p.importer.vars = some vt) :
    (p.importer.sorter = some vt.labels → ∃ p' s, p.buildStructure = .ok p' ∧ p'.struct = some s ∧
      p'.importer = p.importer ∧ p'.trajectories = p.trajectories ∧ p'.totalVariables = some vt.labels.length ∧
      s.total = vt.labels.length ∧ s.labels = vt.labels ∧ s.edges = p.importer.edges.getD [] ∧
      ∀ (i : Nat) (l : Label) (c x : Nat), vt.labels.Nodup → vt.labels[i]? = some l → vt.cards[i]? = some c →
        vt.index[i]? = some x →
        s.getStatesNumber l = .ok c ∧ s.getNodeIndx l = .ok x ∧ s.getPositionalNodeIndx l = .ok i) ∧
    (p.importer.sorter ≠ some vt.labels → p.buildStructure = .error .runtimeError) := by
  constructor
  · intro hs
    refine ⟨{ p with
        totalVariables := some vt.labels.length
        struct := some ⟨vt.labels, vt.index, vt.cards, p.importer.edges.getD [], vt.labels.length⟩ },
      ⟨vt.labels, vt.index, vt.cards, p.importer.edges.getD [], vt.labels.length⟩,
      by unfold SamplePath.buildStructure; rw [hvt]; dsimp only; rw [if_neg (by simpa using hs)], rfl, rfl, rfl, rfl, rfl, rfl, rfl, ?_⟩
    intro i l c x hnd hl hc hx
    have hilt := (List.getElem?_eq_some_iff.1 hl).1
    have hpos : pyIndex vt.labels l = .ok i := by
      rw [pyIndex_of_mem (List.mem_of_getElem? hl)]
      congr 1
      have hl' : vt.labels[i] = l := (List.getElem?_eq_some_iff.1 hl).2
      rw [← hl']
      exact hnd.idxOf_getElem i hilt
    refine ⟨?_, ?_, hpos⟩
    · unfold Structure.getStatesNumber
      dsimp only
      rw [hpos]; exact pyGet_ok.2 hc
    · unfold Structure.getNodeIndx
      dsimp only
      rw [hpos]; exact pyGet_ok.2 hx
  · intro hs
    unfold SamplePath.buildStructure; rw [hvt]; dsimp only; rw [if_pos hs]

/-- **C06** with the default row index, each label's index is the position of its data column. -/
theorem build_structure_default_index (p p' : SamplePath) (vt : VarTable) (hvt : p.importer.vars = some vt)
    (hidx : vt.index = List.range vt.labels.length) (hnd : vt.labels.Nodup) (hlen : vt.cards.length = vt.labels.length)
    (h : p.buildStructure = .ok p') (s : Structure) (hs : p'.struct = some s) (sorter : List Label)
    (hsort : p.importer.sorter = some sorter) (i : Nat) (l : Label) (hl : sorter[i]? = some l) :
    s.getNodeIndx l = .ok i := by
  by_cases hc : p.importer.sorter = some vt.labels
  · obtain ⟨p1, s1, h1, h2, _, _, _, _, _, _, h3⟩ := (build_structure_checks_order p vt hvt).1 hc
    rw [h] at h1; cases h1
    rw [hs] at h2; cases h2
    rw [hsort] at hc; cases hc
    have hi := (List.getElem?_eq_some_iff.1 hl).1
    obtain ⟨c, hcc⟩ : ∃ c, vt.cards[i]? = some c := ⟨_, List.getElem?_eq_getElem (by omega)⟩
    exact (h3 i l c i hnd hl hcc (by rw [hidx]; simp [hi])).2.1
  · rw [(build_structure_checks_order p vt hvt).2 hc] at h; cases h

example : ∃ p' s, (⟨⟨none, some ["X", "Y"], some ⟨[0, 1], ["X", "Y"], [2, 3]⟩, none⟩, none, none, none⟩ : SamplePath).buildStructure
    = .ok p' ∧ p'.struct = some s ∧ s.getStatesNumber "Y" = .ok 3 := ⟨_, _, rfl, rfl, rfl⟩

/-- **C07** (partial) The first call of `build_trajectories` exposes exactly the imported rows and clears the importer.
Missing: later calls, where it is false (`build_trajectories_twice_is_empty`). -/
theorem build_trajectories_first_call_partial (p : SamplePath) (f : Frame) (vars : List Label) (times : List ℚ)
    (rows : List (List ℤ)) (hf : p.importer.concatenated = some f) (hs : p.importer.sorter = some vars)
    (hb : buildListOfSamplesArray f = .ok (times, rows)) :
    ∃ p', p.buildTrajectories = .ok p' ∧ p'.trajectories = some ⟨times, rows, vars.length + 1⟩ ∧
      p'.importer.concatenated = some f.noRows ∧ p'.importer.sorter = p.importer.sorter ∧ p'.struct = p.struct := by
  unfold SamplePath.buildTrajectories
  rw [hf]
  dsimp only
  rw [hb]
  simp only [Except.bind_ok', hs]
  exact ⟨_, rfl, rfl, rfl, rfl, rfl⟩

/-- **C07** refuted: whatever was imported, the second call replaces the trajectories by empty ones, without an error. -/
theorem build_trajectories_twice_is_empty (p p' : SamplePath) (h : p.buildTrajectories = .ok p') :
    ∃ p'' n, p'.buildTrajectories = .ok p'' ∧ p''.trajectories = some ⟨[], [], n⟩ := by
  unfold SamplePath.buildTrajectories at h
  cases hf : p.importer.concatenated with
  | none => rw [hf] at h; cases h
  | some f =>
  rw [hf] at h
  dsimp only at h
  cases hb : buildListOfSamplesArray f with
  | error e => rw [hb] at h; cases h
  | ok tr =>
  rw [hb] at h
  simp only [Except.bind_ok'] at h
  cases hs : p.importer.sorter with
  | none => rw [hs] at h; cases h
  | some s =>
  rw [hs] at h
  simp only [Except.ok.injEq] at h
  subst h
  have hne : buildListOfSamplesArray f.noRows = .ok ([], []) := by
    unfold buildListOfSamplesArray at hb ⊢
    cases hc : f.cols with
    | nil => rw [hc] at hb; cases hb
    | cons p0 r =>
      unfold Frame.noRows
      rw [hc]
      rfl
  have : ∃ q, SamplePath.buildTrajectories { p with
        trajectories := some ⟨tr.1, tr.2, s.length + 1⟩
        importer := { p.importer with concatenated := some f.noRows } } = .ok q ∧ q.trajectories = some ⟨[], [], s.length + 1⟩ := by
    unfold SamplePath.buildTrajectories
    dsimp only
    rw [hne]
    simp only [Except.bind_ok', hs]
    exact ⟨_, rfl, rfl⟩
  obtain ⟨q, hq1, hq2⟩ := this
  simp only [hs] at hq1
  exact ⟨q, _, hq1, hq2⟩

end PyCTBN
