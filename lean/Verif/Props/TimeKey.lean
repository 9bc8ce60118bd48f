import Verif.Props.Importer

/-!
# C179: for which time keys and column orders importing uses the time column

`JsonImporter` takes the name of the time column as an argument (`time_key`), but `AbstractImporter` differences the
*first* column and delivers the column called `Time`. The theorems say exactly what that means for every header.
-/

namespace PyCTBN
open Spec

/-- The frame `f` has the columns `header`, in this order, one row per sample of `raw`: the column `tkey` holds the time
stamps, the other columns hold the states of the variables in the order of the header. The time column may stand anywhere. -/
structure Spec.HoldsNamed (tkey : String) (header : List String) (f : Frame) (raw : RawTraj) : Prop where
  names : f.names = header
  rows : f.index.length = raw.length
  width : ∀ smp ∈ raw, smp.2.length = (header.erase tkey).length
  time : f.col tkey = .ok (raw.map (fun smp => some smp.1))
  states : ∀ (i : Nat) (v : Label), (header.erase tkey)[i]? = some v →
    f.col v = .ok (raw.map (fun smp => smp.2[i]?.map (fun z : ℤ => (z : ℚ))))

/-- Importing with the time key `tkey` is right for all data recorded under the header: it succeeds and the arrays handed
to the estimators are the durations and state pairs of consecutive samples. -/
def Spec.ImportsRight (tkey : String) (header : List String) : Prop :=
  ∀ (f₀ : Frame) (rest : List Frame) (raws : List RawTraj),
    List.Forall₂ (fun f raw => HoldsNamed tkey header f raw ∧ LastLabelUnique f) (f₀ :: rest) raws →
    ∀ (vt : VarTable) (es : List Edge), ∃ C,
      jsonImportData tkey (f₀ :: rest) vt es = .ok ⟨some C, some (header.erase tkey), some vt, some es⟩ ∧
      buildListOfSamplesArray C = .ok (durations raws, stepRows raws)

/-- The cells of the column called `Time` after a frame has been processed: differenced if it is the first column,
otherwise as they were. -/
theorem processed_time_column {f g : Frame} {header : List String} {c : List Cell} {l : ℤ}
    (hl : f.index.getLast? = some l) (h : computeRowDelta f header (header.map (· ++ "S")) = .ok g)
    (hc : f.col "Time" = .ok c) :
    g.col "Time" = .ok (((f.index.zip (if f.names.head? = some "Time" then shiftUp (seriesDiff c) else c)).filter
      (fun q => decide (q.1 ≠ l))).map Prod.snd) := by
  have hS : "Time" ∉ header.map (· ++ "S") := by
    intro hm
    obtain ⟨w, -, e⟩ := List.mem_map.1 hm
    exact append_S_ne_Time w e
  by_cases hT : f.names.head? = some "Time"
  · rw [if_pos hT]
    unfold computeRowDelta at h
    cases hcols : f.cols with
    | nil => rw [hcols] at h; cases h
    | cons p0 r =>
    obtain ⟨n0, c0⟩ := p0
    have hn0 : n0 = "Time" := by
      unfold Frame.names at hT; rw [hcols] at hT; simpa using hT
    subst hn0
    have hcc : c0 = c := by
      unfold Frame.col at hc; rw [hcols] at hc; simpa using hc
    subst hcc
    rw [hcols] at h
    simp only [Except.bind_ok'] at h
    cases hm : header.mapM (⟨f.index, ("Time", shiftUp (seriesDiff c0)) :: r⟩ : Frame).col with
    | error e => rw [hm] at h; cases h
    | ok cs =>
    rw [hm] at h
    simp only [Except.bind_ok', Except.pure_eq_ok', Except.ok.injEq] at h
    have hl2 : ((((header.map (· ++ "S")).zip (cs.map (fun c => fillInt (shiftUp c))))).foldl (fun f p => f.setCol p.1 p.2)
        (⟨f.index, ("Time", shiftUp (seriesDiff c0)) :: r⟩ : Frame)).index.getLast? = some l := by
      rw [Frame.index_foldl_setCol]; exact hl
    rw [← h, Frame.col_dropLastLabel hl2, Frame.index_foldl_setCol, Frame.col_foldl_of_not_mem]
    · have : (⟨f.index, ("Time", shiftUp (seriesDiff c0)) :: r⟩ : Frame).col "Time" = .ok (shiftUp (seriesDiff c0)) := by
        unfold Frame.col; simp
      rw [this]; rfl
    · intro hmem
      obtain ⟨q, hq, e⟩ := List.mem_map.1 hmem
      exact hS (e ▸ (List.of_mem_zip hq).1)
  · rw [if_neg hT]
    exact (rows_with_last_label_dropped f g header _ l hl h).2 "Time" c hS hT hc

/-- What a successful import delivers as times, whatever key and header: the processed columns called `Time`, one after
the other. -/
theorem import_time_cells {tkey : String} {frames : List Frame} {vt : VarTable} {es : List Edge} {imp : Importer}
    (h : jsonImportData tkey frames vt es = .ok imp) :
    ∃ C vars gs, imp = ⟨some C, some vars, some vt, some es⟩ ∧
      frames.mapM (fun f => computeRowDelta f vars (vars.map (· ++ "S"))) = .ok gs ∧
      ∀ F : Frame → List Cell, (∀ g ∈ gs, g.col "Time" = .ok (F g)) → ∃ r, C.cols = ("Time", gs.flatMap F) :: r := by
  unfold jsonImportData at h
  cases h1 : pyGet frames 0 with
  | error e => rw [h1] at h; cases h
  | ok f0 =>
  rw [h1] at h
  simp only [Except.bind_ok'] at h
  cases h2 : jsonSorter tkey f0 with
  | error e => rw [h2] at h; cases h
  | ok vars =>
  rw [h2] at h
  simp only [Except.bind_ok'] at h
  cases h3 : computeAllDeltas vars frames with
  | error e => rw [h3] at h; cases h
  | ok C =>
  rw [h3] at h
  simp only [Except.bind_ok', Except.pure_eq_ok', Except.ok.injEq] at h
  unfold computeAllDeltas at h3
  split at h3
  · cases h3
  dsimp only at h3
  cases h4 : frames.mapM (fun f => computeRowDelta f vars (vars.map (· ++ "S"))) with
  | error e => rw [h4] at h3; cases h3
  | ok gs =>
  rw [h4] at h3
  simp only [Except.bind_ok'] at h3
  cases h5 : Frame.concat gs with
  | error e => rw [h5] at h3; cases h3
  | ok D =>
  rw [h5] at h3
  simp only [Except.bind_ok', Frame.select] at h3
  refine ⟨C, vars, gs, h.symm, h4, ?_⟩
  intro F hF
  have hgne : gs ≠ [] := by rintro rfl; cases h5
  obtain ⟨D', hD', -, -, hcol⟩ := Frame.concat_ok hgne
  rw [h5] at hD'; cases hD'
  rw [List.cons_append, List.mapM_cons, hcol "Time" F hF] at h3
  simp only [Except.bind_ok'] at h3
  cases h6 : (vars ++ vars.map (· ++ "S")).mapM D.col with
  | error e => rw [h6] at h3; cases h3
  | ok cs =>
  rw [h6] at h3
  simp only [Except.bind_ok', Except.pure_eq_ok', Except.ok.injEq] at h3
  exact ⟨_, by rw [← h3]; rfl⟩

/-- Keeping the rows with another label than the last one: all rows but the last, if that label is not repeated. -/
theorem kept_cells {f : Frame} {c : List Cell} (hu : LastLabelUnique f) {l : ℤ} (hl : f.index.getLast? = some l)
    (hlen : c.length = f.index.length) :
    ((f.index.zip c).filter (fun q => decide (q.1 ≠ l))).map Prod.snd = c.dropLast := by
  have hne : f.index ≠ [] := by rintro e; rw [e] at hl; cases hl
  have hpl : f.index = f.index.dropLast ++ [l] := by
    rw [List.getLast?_eq_some_getLast hne] at hl
    rw [← Option.some.inj hl]
    exact (List.dropLast_append_getLast hne).symm
  have := Frame.keepRows_unique (hu _ _ hpl) (c := c) (by rw [hlen, List.length_dropLast]; have := List.length_pos_iff.2 hne; omega)
  rw [← hpl] at this
  exact this

/-- **C179** If the column called `Time` is not the first one, then whatever the configured key and whatever the data, the
"durations" of a successful import are the values of that column themselves, all but the last of each trajectory: time
stamps, not durations. -/
theorem time_not_first_gives_stamps (tkey : String) (frames : List Frame) (stamps : List (List ℚ))
    (h : List.Forall₂ (fun f ts => f.names.head? ≠ some "Time" ∧ f.col "Time" = .ok (ts.map some) ∧
      f.index.length = ts.length ∧ ts ≠ [] ∧ LastLabelUnique f) frames stamps)
    (vt : VarTable) (es : List Edge) (imp : Importer) (hi : jsonImportData tkey frames vt es = .ok imp) :
    ∃ C, imp.concatenated = some C ∧ ∀ times rows, buildListOfSamplesArray C = .ok (times, rows) →
      times = stamps.flatMap List.dropLast := by
  obtain ⟨C, vars, gs, rfl, hgs, hcols⟩ := import_time_cells hi
  refine ⟨C, rfl, ?_⟩
  have key : ∀ {frames : List Frame} {stamps : List (List ℚ)} {gs : List Frame},
      List.Forall₂ (fun f ts => f.names.head? ≠ some "Time" ∧ f.col "Time" = .ok (ts.map some) ∧
        f.index.length = ts.length ∧ ts ≠ [] ∧ LastLabelUnique f) frames stamps →
      frames.mapM (fun f => computeRowDelta f vars (vars.map (· ++ "S"))) = .ok gs →
      List.Forall₂ (fun (g : Frame) (ts : List ℚ) => g.col "Time" = .ok (ts.dropLast.map some)) gs stamps := by
    intro frames stamps gs h
    induction h generalizing gs with
    | nil => intro e; cases e; exact .nil
    | @cons f ts fs tss hf _ ih =>
      intro e
      rw [List.mapM_cons] at e
      cases h1 : computeRowDelta f vars (vars.map (· ++ "S")) with
      | error e' => rw [h1] at e; cases e
      | ok g =>
      rw [h1] at e
      simp only [Except.bind_ok'] at e
      cases h2 : fs.mapM (fun f => computeRowDelta f vars (vars.map (· ++ "S"))) with
      | error e' => rw [h2] at e; cases e
      | ok gs' =>
      rw [h2] at e
      simp only [Except.bind_ok', Except.pure_eq_ok', Except.ok.injEq] at e
      subst e
      obtain ⟨a1, a2, a3, a4, a5⟩ := hf
      have hne : f.index ≠ [] := by
        intro e; rw [e] at a3; exact a4 (List.length_eq_zero_iff.1 a3.symm)
      have hl := List.getLast?_eq_some_getLast hne
      have := processed_time_column hl h1 a2
      rw [if_neg a1, kept_cells a5 hl (by simp [a3]), ← List.map_dropLast] at this
      exact .cons this (ih h2)
  have hk := key h hgs
  have hT : ∀ g ∈ gs, g.col "Time" = .ok (match g.col "Time" with | .ok c => c | .error _ => []) := by
    intro g hg
    have : ∀ {gs : List Frame} {stamps : List (List ℚ)},
        List.Forall₂ (fun (g : Frame) (ts : List ℚ) => g.col "Time" = .ok (ts.dropLast.map some)) gs stamps →
        g ∈ gs → ∃ c, g.col "Time" = .ok c := by
      intro gs stamps h hg
      induction h with
      | nil => simp at hg
      | cons h _ ih =>
        rcases List.mem_cons.1 hg with rfl | hg
        · exact ⟨_, h⟩
        · exact ih hg
    obtain ⟨c, hc⟩ := this hk hg
    rw [hc]
  obtain ⟨r, hr⟩ := hcols _ hT
  have hflat : gs.flatMap (fun g => match g.col "Time" with | .ok c => c | .error _ => [])
      = (stamps.flatMap List.dropLast).map some := by
    clear hr hT hgs h hi hcols key
    induction hk with
    | nil => rfl
    | cons h _ ih => simp only [List.flatMap_cons, List.map_append, ih, h]
  rw [hflat] at hr
  intro times rows hb
  unfold buildListOfSamplesArray at hb
  rw [hr] at hb
  dsimp only at hb
  rw [List.mapM_map, mapM_ok_map (f := cellTime ∘ some) (g := id) (fun p _ => rfl)] at hb
  simp only [Except.bind_ok', List.map_id] at hb
  revert hb
  cases (List.range C.index.length).mapM (fun k : Nat => r.mapM (fun p => do cellInt (← pyGet p.2 k))) with
  | error e => intro hb; cases hb
  | ok rs => intro hb; exact (Prod.mk.inj (Except.ok.inj hb)).1.symm

/-- **C179** For a header with distinct names, one of them the time key, the others free of suffix clashes: importing is
right for all data recorded under it if and only if the key is `Time` and `Time` is the first column. -/
theorem time_key_exact_iff (tkey : String) (header : List String) (hn : header.Nodup) (hk : tkey ∈ header)
    (hv : header.erase tkey ≠ []) (hcl : NoSuffixClash (header.erase tkey)) :
    ImportsRight tkey header ↔ tkey = "Time" ∧ header.head? = some "Time" := by
  constructor
  · intro H
    -- two samples, one time unit apart, every variable in state 0 throughout
    let z : List ℤ := List.replicate (header.erase tkey).length 0
    let raw : RawTraj := [(0, z), (1, z)]
    let f : Frame := ⟨[0, 1], header.map (fun n => (n, if n = tkey then [some 0, some 1] else [some 0, some 0]))⟩
    have hfn : f.names = header := by
      show (header.map _).map Prod.fst = header
      rw [List.map_map]; exact List.map_id _
    have hfc : ∀ n ∈ header, f.col n = .ok (if n = tkey then [some 0, some 1] else [some 0, some 0]) := by
      intro n hnm
      exact Frame.col_map_header hnm
    have hf : HoldsNamed tkey header f raw := by
      refine ⟨hfn, rfl, ?_, ?_, ?_⟩
      · intro smp hs
        simp only [raw, List.mem_cons, List.not_mem_nil, or_false] at hs
        rcases hs with rfl | rfl <;> simp [z]
      · rw [hfc _ hk, if_pos rfl]; rfl
      · intro i v hiv
        have hm := List.mem_of_getElem? hiv
        have hne : v ≠ tkey := ((List.Nodup.mem_erase_iff hn).1 hm).1
        have hil := (List.getElem?_eq_some_iff.1 hiv).1
        rw [hfc v (List.mem_of_mem_erase hm), if_neg hne]
        have hzi : z[i]? = some 0 := by simp [z, hil]
        simp [raw, hzi]
    have hu : LastLabelUnique f := by
      intro pre l h
      have h1 : ([0, 1] : List ℤ).dropLast = pre := by rw [show [0, 1] = pre ++ [l] from h]; simp
      have h2 : ([0, 1] : List ℤ).getLast? = some l := by rw [show [0, 1] = pre ++ [l] from h]; simp
      simp at h1 h2; subst h1 h2; decide
    obtain ⟨C, hC, hb⟩ := H f [] [raw] (.cons ⟨hf, hu⟩ .nil) ⟨[], [], []⟩ []
    have hd : durations [raw] = [1] := by simp [durations, consecutive, raw]
    rw [hd] at hb
    have hT : "Time" ∈ header := by
      by_contra hT
      refine other_time_key_never_imports tkey [f] ⟨[], [], []⟩ [] ?_ _ hC
      intro g hg
      rw [List.mem_singleton.1 hg, hfn]; exact hT
    obtain ⟨C', vars, gs, e, hgs, hcols⟩ := import_time_cells hC
    simp only [Importer.mk.injEq, Option.some.injEq] at e
    obtain ⟨rfl, rfl, -⟩ := e
    rw [List.mapM_cons] at hgs
    cases h1 : computeRowDelta f (header.erase tkey) ((header.erase tkey).map (· ++ "S")) with
    | error e => rw [h1] at hgs; cases hgs
    | ok g =>
    rw [h1] at hgs
    simp only [Except.bind_ok', List.mapM_nil, Except.pure_eq_ok', Except.ok.injEq] at hgs
    subst hgs
    have hg := processed_time_column (l := 1) (by rfl) h1 (hfc _ hT)
    rw [hfn] at hg
    obtain ⟨r, hr⟩ := hcols (fun _ => _) (by intro g' hg'; rw [List.mem_singleton.1 hg']; exact hg)
    unfold buildListOfSamplesArray at hb
    rw [hr] at hb
    dsimp only at hb
    by_contra hno
    have hcells : ((f.index.zip (if header.head? = some "Time" then
          shiftUp (seriesDiff (if "Time" = tkey then [some 0, some 1] else [some 0, some 0]))
        else (if "Time" = tkey then [some 0, some 1] else [some 0, some 0]))).filter (fun q => decide (q.1 ≠ 1))).map Prod.snd
        = [some 0] := by
      show ((([0, 1] : List ℤ).zip _).filter _).map _ = _
      by_cases a : tkey = "Time"
      · have b : header.head? ≠ some "Time" := fun b => hno ⟨a, b⟩
        rw [if_neg b, if_pos a.symm]; decide +kernel
      · rw [if_neg (Ne.symm a)]
        split_ifs <;> decide +kernel
    rw [List.flatMap_cons, List.flatMap_nil, List.append_nil, hcells] at hb
    have hm0 : ([some 0] : List Cell).mapM cellTime = .ok [0] := rfl
    rw [hm0] at hb
    simp only [Except.bind_ok'] at hb
    revert hb
    cases (List.range C.index.length).mapM (fun k : Nat => r.mapM (fun p => do cellInt (← pyGet p.2 k))) with
    | error e => intro hb; cases hb
    | ok rs =>
      intro hb
      have := (Prod.mk.inj (Except.ok.inj hb)).1
      revert this
      decide +kernel
  · rintro ⟨rfl, hh⟩
    obtain ⟨vars, rfl⟩ : ∃ vars, header = "Time" :: vars := by
      cases header with
      | nil => cases hh
      | cons a l => simp at hh; subst hh; exact ⟨l, rfl⟩
    rw [List.erase_cons_head] at hv hcl
    intro f₀ rest raws h vt es
    rw [List.erase_cons_head]
    have hH : List.Forall₂ (fun f raw => Holds "Time" vars f raw ∧ LastLabelUnique f) (f₀ :: rest) raws := by
      refine h.imp ?_
      rintro f raw ⟨h1, h2⟩
      refine ⟨⟨h1.rows, by simpa using h1.width, ?_, by simpa using h1.states, by rw [h1.names]; exact hn⟩, h2⟩
      cases hc : f.cols with
      | nil => have := h1.names; unfold Frame.names at this; rw [hc] at this; cases this
      | cons p r =>
        obtain ⟨n0, c0⟩ := p
        have hnm := h1.names
        unfold Frame.names at hnm
        rw [hc] at hnm
        simp only [List.map_cons, List.cons.injEq] at hnm
        obtain ⟨rfl, -⟩ := hnm
        have ht := h1.time
        unfold Frame.col at ht
        rw [hc] at ht
        simp at ht
        rw [ht]; rfl
    have hn0 : f₀.names = "Time" :: vars := by
      cases h with | cons h0 _ => exact h0.1.names
    obtain ⟨C, c1, -, -, c4⟩ := preprocessing_yields_consecutive_pairs vars hv hcl f₀ rest raws hn0 hH vt es
    exact ⟨C, c1, c4⟩

/-! Non-vacuity: headers of the three kinds, and data to which `time_not_first_gives_stamps` applies. -/

example : ImportsRight "Time" ["Time", "X", "Y"] :=
  (time_key_exact_iff _ _ (by decide) (by decide) (by decide) (by unfold NoSuffixClash; decide)).2 ⟨rfl, rfl⟩
example : ¬ ImportsRight "Time" ["X", "Time", "Y"] := fun h =>
  absurd ((time_key_exact_iff _ _ (by decide) (by decide) (by decide) (by unfold NoSuffixClash; decide)).1 h).2 (by decide)
example : ¬ ImportsRight "t" ["t", "X"] := fun h =>
  absurd ((time_key_exact_iff _ _ (by decide) (by decide) (by decide) (by unfold NoSuffixClash; decide)).1 h).1 (by decide)

/-- A frame over `X` with the time stamps in the second column. -/
def Demo.lateTime : Frame := ⟨[0, 1, 2], [("X", [some 0, some 1, some 0]), ("Time", [some 5, some 6, some 8])]⟩

example : HoldsNamed "Time" ["X", "Time"] Demo.lateTime [(5, [0]), (6, [1]), (8, [0])] := by
  refine ⟨rfl, rfl, by decide, by decide +kernel, ?_⟩
  intro i v h
  match i, h with
  | 0, h => simp at h; subst h; decide +kernel

example : ∃ imp, jsonImportData "Time" [Demo.lateTime] ⟨[0], ["X"], [2]⟩ [] = .ok imp ∧
    Demo.lateTime.names.head? ≠ some "Time" ∧ Demo.lateTime.col "Time" = .ok ([5, 6, 8].map some) :=
  ⟨⟨some ⟨[0, 1], [("Time", [some 5, some 6]), ("X", [some 1, some (-1)]), ("XS", [some (-1), some 0])]⟩,
    some ["X"], some ⟨[0], ["X"], [2]⟩, some []⟩, by decide +kernel, by decide +kernel, by decide +kernel⟩

end PyCTBN
