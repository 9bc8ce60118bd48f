import Verif.Props.Structure
import Verif.Props.Importer
import Verif.Props.SampleFlow

/-!
# Exact boundaries of importing and of the structure look-ups (C97-C100)

Where the code satisfies an expectation only sometimes, the theorems here say exactly when.
-/

namespace PyCTBN
open Spec

/-! ## C97: which names are safe -/

/-- **C97** Importing delivers the consecutive samples for *all* data over the distinct variables `vars` if and only if no variable is
called like another one followed by "S". -/
theorem naming_safe_iff (vars : List Label) (hv : vars ≠ []) (hn : vars.Nodup) (hT : "Time" ∉ vars) :
    (∀ (f₀ : Frame) (rest : List Frame) (raws : List RawTraj), f₀.names = "Time" :: vars →
      List.Forall₂ (fun f raw => Holds "Time" vars f raw ∧ LastLabelUnique f) (f₀ :: rest) raws → ∀ (vt : VarTable) (es : List Edge),
      ∃ C, jsonImportData "Time" (f₀ :: rest) vt es = .ok ⟨some C, some vars, some vt, some es⟩ ∧
        buildListOfSamplesArray C = .ok (durations raws, stepRows raws)) ↔ NoSuffixClash vars := by
  constructor
  · intro H v hvm hS
    obtain ⟨i, hi⟩ := List.mem_iff_getElem?.1 hvm
    obtain ⟨j, hj⟩ := List.mem_iff_getElem?.1 hS
    have hilt := (List.getElem?_eq_some_iff.1 hi).1
    have hjlt := (List.getElem?_eq_some_iff.1 hj).1
    have hij : i ≠ j := by
      rintro rfl
      rw [hi] at hj
      have := congrArg String.length (Option.some.inj hj)
      rw [String.length_append] at this
      have : "S".length = 1 := rfl
      omega
    -- the variable `v ++ "S"` is always in state 1, all others in state 0
    let st : List ℤ := (List.range vars.length).map (fun k => if k = j then 1 else 0)
    let raw : RawTraj := [(0, st), (1, st)]
    have hw : ∀ r ∈ raw, r.2.length = vars.length := by
      intro r hr
      simp only [raw, List.mem_cons, List.not_mem_nil, or_false] at hr
      rcases hr with rfl | rfl <;> simp [st]
    obtain ⟨h1, h2, h3⟩ := frame_holds hn hT hw
    have hF : List.Forall₂ (fun f raw => Holds "Time" vars f raw ∧ LastLabelUnique f) [SampleNet.frame vars raw] [raw] :=
      .cons ⟨h1, h2⟩ .nil
    obtain ⟨C, hC, hb⟩ := H _ [] [raw] h3 hF ⟨[], [], []⟩ []
    obtain ⟨C', times, rows, hC', hb', -, hrow⟩ := suffix_clash_overwrites vars _ [] [raw] h3 hF v i j hi hj ⟨[], [], []⟩ []
    rw [hC] at hC'
    simp only [Except.ok.injEq, Importer.mk.injEq, Option.some.injEq] at hC'
    rw [← hC'.1, hb] at hb'
    simp only [Except.ok.injEq, Prod.mk.injEq] at hb'
    have hs : stepRows [raw] = [st ++ st] := rfl
    obtain ⟨e1, -⟩ := hrow (st ++ st) (by rw [← hb'.2, hs]; simp)
    have hl : st.length = vars.length := by simp [st]
    rw [List.getElem?_append_left (by omega), List.getElem?_append_right (by omega), hl] at e1
    simp [st, hilt, hjlt, hij] at e1
  · intro hcl f₀ rest raws hhdr h vt es
    obtain ⟨C, h1, -, -, h4⟩ := preprocessing_yields_consecutive_pairs vars hv hcl f₀ rest raws hhdr h vt es
    exact ⟨C, h1, h4⟩

example : NoSuffixClash ["X", "S", "XT"] ∧ ¬ NoSuffixClash ["X", "XS"] := by unfold NoSuffixClash; decide

/-! ## C98: which row labels are safe -/

/-- **C98** Processing a trajectory drops its last row and nothing else if and only if no other row carries the last row's label. -/
theorem only_last_row_dropped_iff (f : Frame) (pre : List ℤ) (l : ℤ) (hidx : f.index = pre ++ [l])
    (header : List String) (hc : f.cols ≠ []) (hh : ∀ v ∈ header, v ∈ f.names) :
    (∃ g, computeRowDelta f header (header.map (· ++ "S")) = .ok g ∧ g.index = pre) ↔ l ∉ pre := by
  constructor
  · rintro ⟨g, hg, hgi⟩ hl
    have hlast : f.index.getLast? = some l := by rw [hidx]; simp
    have := (rows_with_last_label_dropped f g header _ l hlast hg).1
    rw [hgi, hidx] at this
    rw [this] at hl
    simp at hl
  · intro hl
    exact only_last_row_dropped_partial f pre l hidx hl header hc hh

example : exFrame.index = [0, 1] ++ [2] ∧ exFrame.cols ≠ [] ∧ (∀ v ∈ ["X", "Y"], v ∈ exFrame.names) ∧ (2 : ℤ) ∉ [(0 : ℤ), 1] := by
  decide +kernel

/-! ## C99: when index and label look-ups are inverse -/

/-- **C99** After any history of edits of an imported structure (indexes 0, 1, …), `get_node_id(get_node_indx(l)) = l` holds for all
labels if and only if the remaining labels are an initial segment of the imported ones. -/
theorem lookups_inverse_iff (s : Structure) (h : WFStructure s) (hi : s.indexes = List.range s.labels.length)
    (ops : List Structure.Op) :
    let s' := ops.foldl Structure.apply s
    (∀ l ∈ s'.labels, ∃ i, s'.getNodeIndx l = .ok i ∧ s'.getNodeId i = .ok l) ↔ s'.labels <+: s.labels := by
  intro s'
  obtain ⟨w, -, hm, ha⟩ := structure_history_alignment s ops h
  have hpos : ∀ l ∈ s'.labels, s'.getNodeIndx l = .ok (s.labels.idxOf l) := by
    intro l hl
    rw [(ha l hl).1, Structure.getNodeIndx, pyIndex_of_mem ((hm l).1 hl).1, Except.bind_ok', hi,
      pyGet_of_lt (by simpa using List.idxOf_lt_length_of_mem ((hm l).1 hl).1)]
    simp
  constructor
  · intro H
    rw [List.prefix_iff_getElem?]
    intro k hk
    have hmem : s'.labels[k] ∈ s'.labels := List.getElem_mem hk
    obtain ⟨i, h1, h2⟩ := H _ hmem
    rw [hpos _ hmem, Except.ok.injEq] at h1
    rw [Structure.getNodeId, pyGet_ok] at h2
    obtain ⟨hik, he⟩ := List.getElem?_eq_some_iff.1 h2
    have hki : i = k := (w.nodup.getElem_inj_iff).1 he
    have hsm := ((hm _).1 hmem).1
    rw [List.getElem?_eq_some_iff]
    have hlt := List.idxOf_lt_length_of_mem hsm
    have hk2 : s.labels.idxOf s'.labels[k] = k := h1.trans hki
    refine ⟨by omega, ?_⟩
    have := List.getElem_idxOf hlt
    simp only [hk2] at this
    exact this
  · rintro ⟨t, ht⟩ l hl
    refine ⟨_, hpos l hl, ?_⟩
    rw [← ht, List.idxOf_append_of_mem hl, Structure.getNodeId, pyGet_of_lt (List.idxOf_lt_length_of_mem hl)]
    simp

example : WFStructure exStructure ∧ exStructure.indexes = List.range exStructure.labels.length ∧
    ([Structure.Op.removeNode "Z"].foldl Structure.apply exStructure).labels <+: exStructure.labels ∧
    ¬ ([Structure.Op.removeNode "X"].foldl Structure.apply exStructure).labels <+: exStructure.labels :=
  ⟨exStructure_wf, by decide, by decide, by decide⟩

/-! ## C100: when equality of structures means equal answers -/

/-- **C100** Two structures that compare equal, with distinct labels and distinct indexes, give every label the same index if and only if they
list the labels in the same order. -/
theorem equal_structures_agree_iff (a b : Structure) (ha : WFStructure a) (hb : WFStructure b) (hi : a.indexes.Nodup)
    (h : a.pyEq b = true) :
    (∀ l, a.getNodeIndx l = b.getNodeIndx l) ↔ a.labels = b.labels := by
  constructor
  · intro H
    have h' := h
    simp only [Structure.pyEq, Bool.and_eq_true, List.all_eq_true, decide_eq_true_eq] at h'
    obtain ⟨⟨⟨⟨h1, h2⟩, -⟩, hix⟩, -⟩ := h'
    have hlen : a.labels.length = b.labels.length := by rw [← ha.idxLen, ← hb.idxLen, hix]
    apply List.ext_getElem hlen
    intro k hka hkb
    have hmem : a.labels[k] ∈ b.labels := h1 _ (List.getElem_mem hka)
    have hH := H a.labels[k]
    have hjb := List.idxOf_lt_length_of_mem hmem
    rw [Structure.getNodeIndx, Structure.getNodeIndx, pyIndex_of_mem (List.getElem_mem hka), pyIndex_of_mem hmem, Except.bind_ok',
      Except.bind_ok', ha.nodup.idxOf_getElem k hka, pyGet_of_lt (by rw [ha.idxLen]; exact hka), ← hix,
      pyGet_of_lt (by rw [ha.idxLen, hlen]; exact hjb), Except.ok.injEq] at hH
    have hk2 := (hi.getElem_inj_iff).1 hH
    have := List.getElem_idxOf hjb
    simp only [← hk2] at this
    exact this.symm
  · intro ho l
    exact (structure_eq_same_answers_partial a b h ho l).2.1

example : (⟨["X", "Y"], [0, 1], [2, 3], [], 2⟩ : Structure).pyEq ⟨["Y", "X"], [0, 1], [2, 3], [], 2⟩ = true ∧
    exStructure.pyEq exStructure = true := by decide

end PyCTBN
