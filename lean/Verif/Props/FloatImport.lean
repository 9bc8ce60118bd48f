import Verif.Lemmas.FloatImport
import Verif.Props.EndToEnd
import Verif.Props.FloatExact

/-! # C171: from raw trajectories to statistics in floating point -/

namespace PyCTBN
open Spec

/-- **C171.**  Importing in floating point: both importers succeed where the exact ones do, and the arrays handed to the estimators are the exact state pairs and the exact durations, each rounded once. -/
theorem float_preprocessing (rnd : ℚ → ℚ) (vars : List Label) (hv : vars ≠ []) (hcl : NoSuffixClash vars)
    (f₀ : Frame) (rest : List Frame) (raws : List RawTraj) (hhdr : f₀.names = "Time" :: vars)
    (h : List.Forall₂ (fun f raw => Holds "Time" vars f raw ∧ LastLabelUnique f) (f₀ :: rest) raws)
    (vt : VarTable) (es : List Edge) :
    ∃ C, jsonImportDataF rnd "Time" (f₀ :: rest) vt es = .ok ⟨some C, some vars, some vt, some es⟩ ∧
      sampleImportDataF rnd (f₀ :: rest) (some vt) (some es) none = .ok ⟨some C, some vars, some vt, some es⟩ ∧
      sampleImportDataF rnd (f₀ :: rest) (some vt) (some es) (some vars) = .ok ⟨some C, some vars, some vt, some es⟩ ∧
      C.index.length = (stepRows raws).length ∧ C.cols ≠ [] ∧
      buildListOfSamplesArray C = .ok ((durations raws).map rnd, stepRows raws) := by
  have hT : "Time" ∉ vars := by
    cases h with
    | cons h0 _ => exact (header_facts h0.1 hhdr).1
  obtain ⟨C, h1, h2, h3, h4⟩ := delivered_no_clashF rnd hv hT hcl (by simp) h
  refine ⟨C, ?_, ?_, ?_, h2, h3, h4⟩
  · unfold jsonImportDataF jsonSorter
    simp only [pyGet, List.getElem?_cons_zero, Except.bind_ok', hhdr]
    have : pyRemove ("Time" :: vars) "Time" = .ok vars := by simp [pyRemove]
    rw [this]
    simp only [Except.bind_ok', h1]; rfl
  · unfold sampleImportDataF
    simp only [pyGet, List.getElem?_cons_zero, Except.bind_ok', hhdr, h1]; rfl
  · unfold sampleImportDataF
    simp only [Except.bind_ok', h1]; rfl

/-- The calls of `buildFromRaw` with rounded time differences. -/
def buildFromRawF (rnd : ℚ → ℚ) (frames : List Frame) (vt : VarTable) (es : List Edge) : Py SamplePath := do
  let imp ← jsonImportDataF rnd "Time" frames vt es
  let p ← SamplePath.new imp
  let p ← p.buildTrajectories
  p.buildStructure

theorem raw_buildsF (rnd : ℚ → ℚ) (vars : List Label) (hcl : NoSuffixClash vars) (hv : vars ≠ [])
    (f₀ : Frame) (rest : List Frame) (raws : List RawTraj) (hhdr : f₀.names = "Time" :: vars)
    (h : List.Forall₂ (fun f raw => Holds "Time" vars f raw ∧ LastLabelUnique f) (f₀ :: rest) raws)
    (hdata : stepRows raws ≠ []) (cards : List Nat) (es : List Edge) :
    ∃ p : SamplePath, buildFromRawF rnd (f₀ :: rest) ⟨List.range vars.length, vars, cards⟩ es = .ok p ∧
      p.struct = some (builtStruct vars cards es) ∧ p.trajectories = some ((builtTraj vars raws).roundTimes rnd) ∧
      p.totalVariables = some vars.length := by
  obtain ⟨C, himp, -, -, hC2, hC3, hC4⟩ := float_preprocessing rnd vars hv hcl f₀ rest raws hhdr h ⟨List.range vars.length, vars, cards⟩ es
  have hidx : C.index ≠ [] := by
    intro e; rw [e] at hC2; exact hdata (List.length_eq_zero_iff.1 hC2.symm)
  refine ⟨⟨⟨some C.noRows, some vars, some ⟨List.range vars.length, vars, cards⟩, some es⟩, some ((builtTraj vars raws).roundTimes rnd),
    some (builtStruct vars cards es), some vars.length⟩, ?_, rfl, rfl, rfl⟩
  unfold buildFromRawF
  rw [himp]
  simp only [Except.bind_ok', SamplePath.new, hv, if_false, hidx, hC3, or_self, SamplePath.buildTrajectories, hC4,
    SamplePath.buildStructure, ne_eq, not_true, Option.getD_some]
  rfl

theorem durations_nonneg {raws : List RawTraj} (h : ∀ raw ∈ raws, (raw.map Prod.fst).Pairwise (· ≤ ·)) : ∀ d ∈ durations raws, 0 ≤ d := by
  intro d hd
  unfold durations at hd
  obtain ⟨raw, hraw, hd⟩ := List.mem_flatMap.1 hd
  obtain ⟨p, hp, rfl⟩ := List.mem_map.1 hd
  have := h raw hraw
  rw [List.pairwise_map] at this
  clear hd h hraw
  unfold consecutive at hp
  induction raw with
  | nil => simp at hp
  | cons a l ih =>
    cases l with
    | nil => simp at hp
    | cons b l =>
      simp only [List.tail_cons, List.zip_cons_cons, List.mem_cons] at hp
      rcases hp with rfl | hp
      · have := (List.pairwise_cons.1 this).1 b (by simp)
        exact sub_nonneg.2 this
      · exact ih (by simpa using hp) (List.pairwise_cons.1 this).2

/-- **C171** (partial), end to end in `float64`: from raw trajectories with nondecreasing time stamps, imported and estimated with every float operation rounded to 53 bits.  Each transition count is the number of
consecutive samples of the raw trajectories, exactly, and each residence time is the time defined on the raw trajectories up to a relative error of `(m + 1)·2⁻⁵³ / (1 - (m + 1)·2⁻⁵³)`, where `m` is the number of steps.
Missing: inadmissible cardinalities (see C17, C21) and clashing labels (see C03). -/
theorem float64_raw_to_statistics_partial (vars : List Label) (hcl : NoSuffixClash vars) (hv : vars ≠ [])
    (f₀ : Frame) (rest : List Frame) (raws : List RawTraj) (hhdr : f₀.names = "Time" :: vars)
    (h : List.Forall₂ (fun f raw => Holds "Time" vars f raw ∧ LastLabelUnique f) (f₀ :: rest) raws)
    (hdata : stepRows raws ≠ []) (hmono : ∀ raw ∈ raws, (raw.map Prod.fst).Pairwise (· ≤ ·)) (hrows : (stepRows raws).length + 1 < 2 ^ 53)
    (cards : List Nat) (hcards : cards.length = vars.length) (hrange : RawInRange cards raws) (hcpos : ∀ c ∈ cards, 0 < c) (es : List Edge) :
    ∃ (p : SamplePath) (s : Structure) (t : Trajectory),
      buildFromRawF (binRound 53) (f₀ :: rest) ⟨List.range vars.length, vars, cards⟩ es = .ok p ∧ p.struct = some s ∧
      p.trajectories = some t ∧ s.labels = vars ∧ s.edges = es ∧
      ∀ (g : NetworkGraph), Reach s g → ∀ n ∈ vars, ∀ (c : Nat) (ps : List Nat), s.getStatesNumber n = .ok c →
        ps.map Except.ok = (parentsOf g n).map s.getStatesNumber → ExactCards c ps → c * c * (c + topParentSlot ps) ≤ 2 ^ 53 →
        ∃ sofc, ParamsEst.estimateF (binRound 53) t g n = .ok sofc ∧ (∀ u, u ∈ sofc.pCombs ↔ InRangeAssign ps u) ∧
          ∀ (r : Nat) (u : List Nat), sofc.pCombs[r]? = some u → ∃ cim : Cim, sofc.cims[r]? = some cim ∧
            (∀ x, x < c → ∃ T, cim.resTimes[x]? = some T ∧
              |T - rawResidence vars raws n (parentsOf g n) x u|
                ≤ (((stepRows raws).length + 1 : Nat) * (1 / 2 ^ 53)) / (1 - ((stepRows raws).length + 1 : Nat) * (1 / 2 ^ 53))
                  * rawResidence vars raws n (parentsOf g n) x u) ∧
            (∀ x x', x < c → x' < c → x ≠ x' →
              entry2 cim.trans x x' = some (rawTransitions vars raws n (parentsOf g n) x x' u)) := by
  obtain ⟨p, hp, hps, hpt, -⟩ := raw_buildsF (binRound 53) vars hcl hv f₀ rest raws hhdr h hdata cards es
  obtain ⟨pe, se, te, b1, b2, b3, b4, b5, hstat⟩ := raw_to_statistics_partial vars hcl hv f₀ rest raws hhdr h hdata cards hcards hrange hcpos es
  obtain ⟨pe', b1', b2', b3', -, -, -, -, hOK⟩ := raw_builds_data vars hcl hv f₀ rest raws hhdr h hdata cards hrange es
  rw [b1] at b1'; cases b1'
  rw [b2] at b2'; cases b2'
  rw [b3] at b3'; cases b3'
  refine ⟨p, _, _, hp, hps, hpt, b4, b5, ?_⟩
  intro g hg n hn c ps hcn hpar hex hN
  have hd := durations_nonneg hmono
  obtain ⟨a, ha, -, hcomb, hcims⟩ := hstat g hg n hn c ps hcn hpar hex
  obtain ⟨b, hb, hpc, -, hnear⟩ := float64_residence_times _ g hg hcpos n hn c hcn ps hpar (builtTraj vars raws) hOK hd hN hrows a ha
  refine ⟨b, hb, by rw [hpc]; exact hcomb, ?_⟩
  intro r u hru
  rw [hpc] at hru
  obtain ⟨ca, hca, hres, htr⟩ := hcims r u hru
  obtain ⟨cb, hcb, htrans, htimes⟩ := hnear r ca hca
  refine ⟨cb, hcb, ?_, fun x x' hx hx' hne => by rw [htrans]; exact htr x x' hx hx' hne⟩
  intro x hx
  obtain ⟨T, hT, hle⟩ := htimes x _ (hres x hx)
  refine ⟨T, hT, ?_⟩
  rw [abs_of_nonneg (a := rawResidence vars raws n (parentsOf g n) x u)] at hle
  · exact hle
  · unfold rawResidence
    apply List.sum_nonneg
    intro q hq
    obtain ⟨w, hw, rfl⟩ := List.mem_map.1 hq
    apply hd
    obtain ⟨raw, hraw, hw'⟩ := List.mem_flatMap.1 (List.mem_of_mem_filter hw)
    exact List.mem_flatMap.2 ⟨raw, hraw, List.mem_map.2 ⟨w, hw', rfl⟩⟩

/-- The further hypotheses are met by the example frame (the others: see `raw_to_statistics_partial`), and a difference really is rounded. -/
example : (∀ raw ∈ [exRaw], (raw.map Prod.fst).Pairwise (· ≤ ·)) ∧ (stepRows [exRaw]).length + 1 < 2 ^ 53 ∧ 2 * 2 * (2 + topParentSlot [3]) ≤ 2 ^ 53 ∧
    (jsonImportDataF (fun q => if q = 3 / 2 then 1 else q) "Time" [exFrame] ⟨[0, 1], ["X", "Y"], [2, 3]⟩ []).bind
      (fun i => match i.concatenated with | some C => buildListOfSamplesArray C | none => .error .typeError) = .ok (([1 / 2, 1] : List ℚ), ([[0, 0, 1, 0], [1, 0, 1, 2]] : List (List ℤ))) := by
  refine ⟨?_, ?_, ?_, ?_⟩ <;> decide +kernel

end PyCTBN
