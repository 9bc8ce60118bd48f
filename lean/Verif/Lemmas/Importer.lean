import Verif.Lemmas.Estimate
import Verif.Spec.Importer
import Mathlib.Data.Rat.Floor

/-! Lemmas about frames and preprocessing. -/

namespace PyCTBN
open Spec

theorem append_S_inj {v w : String} (h : v ++ "S" = w ++ "S") : v = w := by
  have := congrArg String.toList h
  simp only [String.toList_append, List.append_cancel_right_eq] at this
  exact String.toList_inj.1 this

theorem append_S_ne_Time (v : String) : v ++ "S" ≠ "Time" := by
  intro h
  have := congrArg (fun s => s.toList.getLast?) h
  simp [String.toList_append] at this

theorem append_S_ne_self (v : String) : v ++ "S" ≠ v := by
  intro h
  have := congrArg (fun s => s.toList.length) h
  simp [String.toList_append] at this

namespace Frame

theorem col_ok_mem {f : Frame} {n : String} {c : List Cell} (h : f.col n = .ok c) : n ∈ f.names := by
  unfold col at h
  cases hf : f.cols.find? (fun p => decide (p.1 = n)) with
  | none => rw [hf] at h; cases h
  | some p =>
    have h1 := List.mem_of_find?_eq_some hf
    have h2 := List.find?_some hf
    simp only [decide_eq_true_eq] at h2
    exact h2 ▸ List.mem_map_of_mem h1

theorem col_of_mem {f : Frame} {n : String} (h : n ∈ f.names) : ∃ c, f.col n = .ok c := by
  unfold col
  obtain ⟨p, hp, rfl⟩ := List.mem_map.1 h
  cases hf : f.cols.find? (fun q => decide (q.1 = p.1)) with
  | none => have := List.find?_eq_none.1 hf p hp; simp at this
  | some q => exact ⟨_, rfl⟩

theorem col_of_not_mem {f : Frame} {n : String} (h : n ∉ f.names) : f.col n = .error .keyError := by
  unfold col
  have : f.cols.find? (fun q => decide (q.1 = n)) = none := by
    rw [List.find?_eq_none]; intro p hp; simp; rintro rfl; exact h (List.mem_map_of_mem hp)
  rw [this]

theorem col_setCol (f : Frame) (n m : String) (v : List Cell) :
    (f.setCol n v).col m = if m = n then .ok v else f.col m := by
  unfold setCol
  split
  · rename_i hn
    unfold col
    dsimp only
    have key : ∀ l : List (String × List Cell),
        (l.map (fun p => if p.1 = n then (n, v) else p)).find? (fun p => decide (p.1 = m))
          = (l.find? (fun p => decide (p.1 = m))).map (fun p => if p.1 = n then (n, v) else p) := by
      intro l
      rw [List.find?_map]
      congr 2
      funext p
      simp only [Function.comp]
      by_cases hp : p.1 = n <;> simp [hp]
    rw [key]
    by_cases hm : m = n
    · subst hm
      rw [if_pos rfl]
      cases hf : f.cols.find? (fun p => decide (p.1 = m)) with
      | none =>
        obtain ⟨p, hp, e⟩ := List.mem_map.1 hn
        have := List.find?_eq_none.1 hf p hp
        simp [e] at this
      | some p =>
        have h2 := List.find?_some hf
        simp only [decide_eq_true_eq] at h2
        simp [h2]
    · rw [if_neg hm]
      cases hf : f.cols.find? (fun p => decide (p.1 = m)) with
      | none => rfl
      | some p =>
        have h2 := List.find?_some hf
        simp only [decide_eq_true_eq] at h2
        have : p.1 ≠ n := by rw [h2]; exact hm
        simp [this]
  · rename_i hn
    unfold col
    dsimp only
    rw [List.find?_append]
    by_cases hm : m = n
    · subst hm
      have : f.cols.find? (fun q => decide (q.1 = m)) = none := by
        rw [List.find?_eq_none]; intro p hp; simp; rintro rfl; exact hn (List.mem_map_of_mem hp)
      simp [this]
    · rw [if_neg hm]
      cases hf : f.cols.find? (fun p => decide (p.1 = m)) with
      | none => simp [Ne.symm hm]
      | some p => rfl

theorem index_setCol (f : Frame) (n : String) (v : List Cell) : (f.setCol n v).index = f.index := by
  unfold setCol; split <;> rfl

theorem index_foldl_setCol (kvs : List (String × List Cell)) (f : Frame) :
    (kvs.foldl (fun f p => f.setCol p.1 p.2) f).index = f.index := by
  induction kvs generalizing f with
  | nil => rfl
  | cons p kvs ih => rw [List.foldl_cons, ih, index_setCol]

theorem col_foldl_of_not_mem (kvs : List (String × List Cell)) (f : Frame) (m : String) (h : m ∉ kvs.map Prod.fst) :
    (kvs.foldl (fun f p => f.setCol p.1 p.2) f).col m = f.col m := by
  induction kvs generalizing f with
  | nil => rfl
  | cons p kvs ih =>
    simp only [List.map_cons, List.mem_cons, not_or] at h
    rw [List.foldl_cons, ih _ h.2, col_setCol, if_neg h.1]

theorem col_foldl_of_mem (kvs : List (String × List Cell)) (f : Frame) (m : String) (c : List Cell)
    (h : ∀ c', (m, c') ∈ kvs → c' = c) (hm : m ∈ kvs.map Prod.fst) :
    (kvs.foldl (fun f p => f.setCol p.1 p.2) f).col m = .ok c := by
  induction kvs generalizing f with
  | nil => simp at hm
  | cons p kvs ih =>
    rw [List.foldl_cons]
    by_cases hk : m ∈ kvs.map Prod.fst
    · exact ih _ (fun c' hc' => h c' (by simp [hc'])) hk
    · rw [col_foldl_of_not_mem _ _ _ hk, col_setCol]
      have : m = p.1 := by simpa [hk] using hm
      rw [if_pos this, h p.2 (by subst this; simp)]

/-- The rows kept by `dropLastLabel`. -/
def keepRows (idx : List ℤ) (l : ℤ) (c : List Cell) : List Cell :=
  ((idx.zip c).filter (fun q => decide (q.1 ≠ l))).map Prod.snd

theorem col_dropLastLabel {f : Frame} {l : ℤ} (h : f.index.getLast? = some l) (n : String) :
    f.dropLastLabel.col n = (f.col n).map (keepRows f.index l) := by
  unfold dropLastLabel col
  rw [h]
  dsimp only
  rw [List.find?_map]
  have : ((fun p : String × List Cell => decide (p.1 = n)) ∘ fun p : String × List Cell =>
      (p.1, ((f.index.zip p.2).filter (fun q => decide (q.1 ≠ l))).map Prod.snd)) = fun p => decide (p.1 = n) := by
    funext p; rfl
  rw [this]
  cases f.cols.find? (fun p => decide (p.1 = n)) <;> rfl

theorem keepRows_unique {pre : List ℤ} {l : ℤ} (h : l ∉ pre) {c : List Cell} (hc : c.length = pre.length + 1) :
    keepRows (pre ++ [l]) l c = c.dropLast := by
  unfold keepRows
  induction pre generalizing c with
  | nil =>
    match c, hc with
    | [a], _ => simp
  | cons x pre ih =>
    simp only [List.mem_cons, not_or] at h
    match c, hc with
    | a :: b :: c, hc =>
      have := ih h.2 (c := b :: c) (by simpa using hc)
      simp only [List.cons_append, List.zip_cons_cons, List.filter_cons, ne_eq, Ne.symm h.1, not_false_eq_true, decide_true, if_true,
        List.map_cons]
      simp only [ne_eq] at this
      rw [this]; rfl

theorem filter_unique {pre : List ℤ} {l : ℤ} (h : l ∉ pre) : (pre ++ [l]).filter (fun x => decide (x ≠ l)) = pre := by
  rw [List.filter_append, List.filter_eq_self.2 (fun x hx => by simp; rintro rfl; exact h hx)]
  simp

theorem mem_header {fs : List Frame} {acc : List String} {n : String} (h : n ∈ acc) :
    n ∈ fs.foldl (fun acc g => acc ++ g.names.filter (fun n => decide (n ∉ acc))) acc := by
  induction fs generalizing acc with
  | nil => exact h
  | cons g fs ih => rw [List.foldl_cons]; exact ih (by simp [h])

theorem mem_header_iff {fs : List Frame} {acc : List String} {n : String} :
    n ∈ fs.foldl (fun acc g => acc ++ g.names.filter (fun n => decide (n ∉ acc))) acc ↔
      n ∈ acc ∨ ∃ g ∈ fs, n ∈ g.names := by
  induction fs generalizing acc with
  | nil => simp
  | cons g fs ih =>
    rw [List.foldl_cons, ih]
    simp only [List.mem_append, List.mem_filter, decide_eq_true_eq, List.mem_cons, exists_eq_or_imp]
    tauto

theorem col_map_header {H : List String} {idx : List ℤ} {F : String → List Cell} {n : String} (h : n ∈ H) :
    (⟨idx, H.map (fun n => (n, F n))⟩ : Frame).col n = .ok (F n) := by
  unfold col
  dsimp only
  rw [List.find?_map]
  have : ((fun p : String × List Cell => decide (p.1 = n)) ∘ fun n => (n, F n)) = fun m => decide (m = n) := by funext p; rfl
  rw [this]
  cases hf : H.find? (fun m => decide (m = n)) with
  | none => have := List.find?_eq_none.1 hf n h; simp at this
  | some m =>
    have h2 := List.find?_some hf
    simp only [decide_eq_true_eq] at h2
    subst h2; rfl

theorem concat_ok {gs : List Frame} (hne : gs ≠ []) : ∃ C, concat gs = .ok C ∧ C.index = gs.flatMap (·.index) ∧
    (∀ n, (∀ g ∈ gs, n ∉ g.names) → C.col n = .error .keyError) ∧
    (∀ n (F : Frame → List Cell), (∀ g ∈ gs, g.col n = .ok (F g)) → C.col n = .ok (gs.flatMap F)) := by
  cases gs with
  | nil => exact absurd rfl hne
  | cons f fs =>
    refine ⟨_, rfl, rfl, ?_, ?_⟩
    · intro n hn
      apply col_of_not_mem
      unfold names
      simp only [List.map_map]
      intro h
      obtain ⟨m, hm, e⟩ := List.mem_map.1 h
      simp only [Function.comp] at e
      subst e
      rcases mem_header_iff.1 hm with h1 | ⟨g, hg, h1⟩
      · exact hn f (by simp) h1
      · exact hn g (by simp [hg]) h1
    · intro n F hF
      rw [col_map_header (mem_header (col_ok_mem (hF f (by simp))))]
      congr 1
      rw [List.flatMap_def, List.flatMap_def]
      congr 1
      apply List.map_congr_left
      intro g hg
      rw [hF g hg]

end Frame

theorem seriesDiff_shift (ts : List ℚ) (h : ts ≠ []) :
    shiftUp (seriesDiff (ts.map some)) = (ts.zip ts.tail).map (fun p => some (p.2 - p.1)) ++ [none] := by
  cases ts with
  | nil => exact absurd rfl h
  | cons a l =>
    simp only [List.map_cons, seriesDiff, shiftUp, List.tail_cons]
    congr 1
    apply List.ext_getElem?
    intro i
    simp only [List.getElem?_zipWith, List.getElem?_map, List.getElem?_zip_eq_some, List.zip, cellSub]
    cases h1 : l[i]? with
    | none => cases (a :: l)[i]? <;> simp
    | some b =>
      cases h2 : (a :: l)[i]? with
      | none =>
        have := (List.getElem?_eq_some_iff.1 h1).1
        rw [List.getElem?_eq_none_iff] at h2; simp at h2; omega
      | some c =>
        cases i with
        | zero => simp at h2; subst h2; simp
        | succ j => simp at h2; simp [h2]

theorem truncInt_intCast (z : ℤ) : truncInt (z : ℚ) = z := by
  unfold truncInt
  split
  · exact Rat.floor_intCast z
  · rw [show -(z : ℚ) = ((-z : ℤ) : ℚ) by push_cast; rfl, Rat.floor_intCast]; simp

/-- Cell of variable number `i` in a sample. -/
def cellOf (i : Nat) (smp : ℚ × List ℤ) : Cell := smp.2[i]?.map (fun z : ℤ => (z : ℚ))

theorem consecutive_fst (raw : RawTraj) : (consecutive raw).map Prod.fst = raw.dropLast := by
  unfold consecutive
  cases raw with
  | nil => rfl
  | cons a l =>
    induction l generalizing a with
    | nil => rfl
    | cons b l ih => simpa using ih b

theorem consecutive_snd (raw : RawTraj) : (consecutive raw).map Prod.snd = raw.tail := by
  unfold consecutive
  rw [List.map_snd_zip]; simp

theorem consecutive_length (raw : RawTraj) : (consecutive raw).length = raw.length - 1 := by
  simp [consecutive]

/-- What preprocessing one frame yields. -/
theorem computeRowDelta_spec {tkey : String} {vars : List Label} {f : Frame} {raw : RawTraj} (h : Holds tkey vars f raw)
    (ht : tkey ∉ vars) (htS : ∀ v ∈ vars, v ++ "S" ≠ tkey) (hu : LastLabelUnique f) :
    ∃ g, computeRowDelta f vars (vars.map (· ++ "S")) = .ok g ∧ g.index.length = (consecutive raw).length ∧
      g.col tkey = .ok ((consecutive raw).map (fun p => some (p.2.1 - p.1.1))) ∧
      (∀ (i : Nat) (v : Label), vars[i]? = some v →
        g.col (v ++ "S") = .ok ((consecutive raw).map (fun p => cellOf i p.2))) ∧
      (∀ (i : Nat) (v : Label), vars[i]? = some v → (∀ w ∈ vars, w ++ "S" ≠ v) →
        g.col v = .ok ((consecutive raw).map (fun p => cellOf i p.1))) ∧
      (∀ n, n ∈ g.names → n ∈ f.names ∨ ∃ v ∈ vars, n = v ++ "S") := by
  obtain ⟨hrows, hwidth, htime, hstates, hnd⟩ := h
  cases hcols : f.cols with
  | nil => rw [hcols] at htime; cases htime
  | cons p0 rest =>
  obtain ⟨n0, c0⟩ := p0
  rw [hcols] at htime
  simp only [List.head?_cons, Option.some.injEq, Prod.mk.injEq] at htime
  obtain ⟨rfl, rfl⟩ := htime
  set f1 : Frame := ⟨f.index, (n0, shiftUp (seriesDiff (raw.map (fun smp => some smp.1)))) :: rest⟩ with hf1
  have hcol1 : ∀ m, m ≠ n0 → f1.col m = f.col m := by
    intro m hm
    unfold Frame.col; rw [hf1, hcols]; simp [Ne.symm hm]
  have hcol1t : f1.col n0 = .ok (shiftUp (seriesDiff (raw.map (fun smp => some smp.1)))) := by
    unfold Frame.col; rw [hf1]; simp
  have hnames1 : f1.names = f.names := by unfold Frame.names; rw [hf1, hcols]; rfl
  have hcs : vars.mapM f1.col = .ok ((List.range vars.length).map (fun i => raw.map (cellOf i))) := by
    have hv : vars = (List.range vars.length).map (fun i : Nat => vars.getD i "") := by
      apply ext_map_range rfl; intro i hi; simp [hi]
    conv_lhs => rw [hv]
    rw [List.mapM_map]
    apply mapM_ok_map
    intro i hi
    have hi' := List.mem_range.1 hi
    have hvi : vars[i]? = some (vars.getD i "") := by simp [hi']
    show f1.col (vars.getD i "") = _
    rw [hcol1 _ (by intro e; exact ht (e ▸ List.mem_of_getElem? hvi)), hstates i _ hvi]
    rfl
  set kvs := (vars.map (· ++ "S")).zip (((List.range vars.length).map (fun i => raw.map (cellOf i))).map
    (fun c => fillInt (shiftUp c))) with hkvs
  set f2 := kvs.foldl (fun f p => f.setCol p.1 p.2) f1 with hf2
  have hkeys : kvs.map Prod.fst = vars.map (· ++ "S") := by
    rw [hkvs, List.map_fst_zip]; simp
  have hres : computeRowDelta f vars (vars.map (· ++ "S")) = .ok f2.dropLastLabel := by
    unfold computeRowDelta
    rw [hcols]
    simp only [Except.bind_ok']
    rw [← hf1, hcs]
    rfl
  have hidx2 : f2.index = f.index := by rw [hf2, Frame.index_foldl_setCol, hf1]
  -- columns of `f2`
  have h2t : f2.col n0 = .ok (shiftUp (seriesDiff (raw.map (fun smp => some smp.1)))) := by
    rw [hf2, Frame.col_foldl_of_not_mem _ _ _ (by
      rw [hkeys]; intro h; obtain ⟨v, hv, e⟩ := List.mem_map.1 h; exact htS v hv e), hcol1t]
  have h2s : ∀ (i : Nat) (v : Label), vars[i]? = some v → f2.col (v ++ "S") = .ok (fillInt (shiftUp (raw.map (cellOf i)))) := by
    intro i v hiv
    rw [hf2]
    apply Frame.col_foldl_of_mem
    · intro c' hc'
      obtain ⟨k, hk⟩ := List.mem_iff_getElem?.1 hc'
      rw [hkvs] at hk
      simp only [List.getElem?_zip_eq_some, List.getElem?_map] at hk
      obtain ⟨hk1, hk2⟩ := hk
      cases hvk : vars[k]? with
      | none => rw [hvk] at hk1; cases hk1
      | some w =>
        rw [hvk] at hk1
        simp only [Option.map_some, Option.some.injEq] at hk1
        have hw := append_S_inj hk1
        subst hw
        have hklt := (List.getElem?_eq_some_iff.1 hvk).1
        rw [List.getElem?_range hklt] at hk2
        simp only [Option.map_some, Option.some.injEq] at hk2
        rw [← hk2]
        -- columns of equal variables agree
        have e1 := hstates k w hvk
        have e2 := hstates i w hiv
        rw [e1] at e2
        have e3 : raw.map (cellOf k) = raw.map (cellOf i) := Except.ok.inj e2
        rw [e3]
    · rw [hkeys]; exact List.mem_map_of_mem (List.mem_of_getElem? hiv)
  have h2c : ∀ (i : Nat) (v : Label), vars[i]? = some v → (∀ w ∈ vars, w ++ "S" ≠ v) →
      f2.col v = .ok (raw.map (cellOf i)) := by
    intro i v hiv hno
    rw [hf2, Frame.col_foldl_of_not_mem _ _ _ (by
      rw [hkeys]; intro h; obtain ⟨w, hw, e⟩ := List.mem_map.1 h; exact hno w hw e),
      hcol1 _ (by rintro rfl; exact ht (List.mem_of_getElem? hiv)), hstates i v hiv]
    rfl
  have h2n : ∀ n, n ∈ f2.names → n ∈ f.names ∨ ∃ v ∈ vars, n = v ++ "S" := by
    intro n hn
    by_cases hk : n ∈ vars.map (· ++ "S")
    · obtain ⟨v, hv, e⟩ := List.mem_map.1 hk; exact .inr ⟨v, hv, e.symm⟩
    · left
      obtain ⟨c, hc⟩ := Frame.col_of_mem hn
      rw [hf2, Frame.col_foldl_of_not_mem _ _ _ (by rw [hkeys]; exact hk)] at hc
      rw [← hnames1]; exact Frame.col_ok_mem hc
  refine ⟨_, hres, ?_⟩
  by_cases hraw : raw = []
  · subst hraw
    have hidx : f.index = [] := List.length_eq_zero_iff.1 (by simpa using hrows)
    have hdrop : f2.dropLastLabel = f2 := by unfold Frame.dropLastLabel; rw [hidx2, hidx]; rfl
    rw [hdrop]
    refine ⟨by rw [hidx2, hidx]; rfl, by rw [h2t]; rfl, ?_, ?_, h2n⟩
    · intro i v hv; rw [h2s i v hv]; rfl
    · intro i v hv hno; rw [h2c i v hv hno]; rfl
  · have hpos : 0 < raw.length := List.length_pos_iff.2 hraw
    have hidxne : f.index ≠ [] := by intro e; rw [e] at hrows; simp at hrows; omega
    obtain ⟨pre, l, hpl⟩ : ∃ pre l, f.index = pre ++ [l] := ⟨f.index.dropLast, f.index.getLast hidxne, (List.dropLast_append_getLast hidxne).symm⟩
    have hl := hu pre l hpl
    have hprelen : pre.length + 1 = raw.length := by rw [← hrows, hpl]; simp
    have hlast : f2.index.getLast? = some l := by rw [hidx2, hpl]; simp
    have hdropcol : ∀ n c, f2.col n = .ok c → c.length = raw.length → f2.dropLastLabel.col n = .ok c.dropLast := by
      intro n c hc hlen
      rw [Frame.col_dropLastLabel hlast, hc]
      show Except.ok _ = _
      rw [hidx2, hpl, Frame.keepRows_unique hl (by omega)]
    have hmap : raw.map (fun smp => (some smp.1 : Cell)) = (raw.map Prod.fst).map some := by rw [List.map_map]; rfl
    refine ⟨?_, ?_, ?_, ?_, ?_⟩
    · unfold Frame.dropLastLabel
      rw [hlast]
      dsimp only
      rw [hidx2, hpl, Frame.filter_unique hl, consecutive_length]; omega
    · have e : shiftUp (seriesDiff (raw.map (fun smp => some smp.1)))
          = (consecutive raw).map (fun p => some (p.2.1 - p.1.1)) ++ [none] := by
        rw [hmap, seriesDiff_shift _ (by simpa using hraw), ← List.map_tail, List.zip_map, List.map_map]
        rfl
      rw [hdropcol n0 _ (h2t.trans (by rw [e])) (by simp [consecutive_length]; omega), List.dropLast_concat]
    · intro i v hiv
      have e : fillInt (shiftUp (raw.map (cellOf i))) = (consecutive raw).map (fun p => cellOf i p.2) ++ [some 0] := by
        have hsh : shiftUp (raw.map (cellOf i)) = raw.tail.map (cellOf i) ++ [none] := by
          cases raw with
          | nil => exact absurd rfl hraw
          | cons a l => rfl
        have h3 : (consecutive raw).map (fun p => cellOf i p.2) = raw.tail.map (cellOf i) := by
          rw [← consecutive_snd, List.map_map]; rfl
        rw [hsh, h3]
        unfold fillInt
        rw [List.map_append]
        congr 1
        rw [List.map_map]
        apply List.map_congr_left
        intro smp hsmp
        have hlt : i < smp.2.length := by
          rw [hwidth smp (List.mem_of_mem_tail hsmp)]; exact (List.getElem?_eq_some_iff.1 hiv).1
        simp [cellOf, hlt, truncInt_intCast]
      rw [hdropcol _ _ (h2s i v hiv) (by rw [e]; simp [consecutive_length]; omega), e, List.dropLast_concat]
    · intro i v hiv hno
      rw [hdropcol _ _ (h2c i v hiv hno) (by simp), ← List.map_dropLast, ← consecutive_fst, List.map_map]; rfl
    · intro n hn
      apply h2n
      obtain ⟨c, hc⟩ := Frame.col_of_mem hn
      rw [Frame.col_dropLastLabel hlast] at hc
      cases hx : f2.col n with
      | error e => rw [hx] at hc; cases hc
      | ok c' => exact Frame.col_ok_mem hx

/-- What ends up in the "current state" column of variable number `i`: its own current state, unless some variable `w` is
such that `w ++ "S"` is this variable's name; then the next state of `w`. -/
def curCell (vars : List Label) (i : Nat) (p : (ℚ × List ℤ) × (ℚ × List ℤ)) : Cell :=
  match vars.findIdx? (fun w => decide (w ++ "S" = vars.getD i "")) with
  | some j => cellOf j p.2
  | none => cellOf i p.1

theorem range_getD (vars : List Label) : (List.range vars.length).map (fun i : Nat => vars.getD i "") = vars :=
  (ext_map_range rfl (fun i hi => by simp [hi])).symm

theorem mapM_getD {β} {vars : List Label} {F : Label → Py β} {G : Nat → β}
    (h : ∀ (i : Nat) (v : Label), vars[i]? = some v → F v = .ok (G i)) :
    vars.mapM F = .ok ((List.range vars.length).map G) := by
  conv_lhs => rw [← range_getD vars]
  rw [List.mapM_map]
  apply mapM_ok_map
  intro i hi
  have hi' := List.mem_range.1 hi
  exact h i _ (by simp [hi'])

theorem mapM_append_ok {α β} {F : α → Py β} {l₁ l₂ : List α} {r₁ r₂ : List β} (h₁ : l₁.mapM F = .ok r₁)
    (h₂ : l₂.mapM F = .ok r₂) : (l₁ ++ l₂).mapM F = .ok (r₁ ++ r₂) := by
  rw [List.mapM_append, h₁, h₂]; rfl

theorem flatMap_cols {n : String} {G : (ℚ × List ℤ) × (ℚ × List ℤ) → Cell} {gs : List Frame} {raws : List RawTraj}
    (hG : List.Forall₂ (fun (g : Frame) raw => g.col n = .ok ((consecutive raw).map G)) gs raws) :
    gs.flatMap (fun g => match g.col n with | .ok c => c | .error _ => []) = (raws.flatMap consecutive).map G := by
  induction hG with
  | nil => rfl
  | cons h _ ih => simp only [List.flatMap_cons, List.map_append, ih, h]

theorem flatMap_index {gs : List Frame} {raws : List RawTraj}
    (hG : List.Forall₂ (fun (g : Frame) raw => g.index.length = (consecutive raw).length) gs raws) :
    (gs.flatMap (·.index)).length = (raws.flatMap consecutive).length := by
  induction hG with
  | nil => rfl
  | cons h _ ih => simp only [List.flatMap_cons, List.length_append, ih, h]

/-- What preprocessing a list of frames yields. -/
theorem computeAllDeltas_spec {vars : List Label} (hv : vars ≠ []) (ht : "Time" ∉ vars) {frames : List Frame}
    {raws : List RawTraj} (hne : frames ≠ [])
    (h : List.Forall₂ (fun f raw => Holds "Time" vars f raw ∧ LastLabelUnique f) frames raws) :
    ∃ C, computeAllDeltas vars frames = .ok C ∧ C.index.length = (raws.flatMap consecutive).length ∧
      C.cols = ("Time", (raws.flatMap consecutive).map (fun p => some (p.2.1 - p.1.1))) ::
        (vars.zip ((List.range vars.length).map (fun i => (raws.flatMap consecutive).map (curCell vars i))) ++
        (vars.map (· ++ "S")).zip ((List.range vars.length).map (fun i => (raws.flatMap consecutive).map (fun p => cellOf i p.2)))) := by
  -- process each frame
  have step : ∀ {frames : List Frame} {raws : List RawTraj},
      List.Forall₂ (fun f raw => Holds "Time" vars f raw ∧ LastLabelUnique f) frames raws →
      ∃ gs : List Frame, frames.mapM (fun f => computeRowDelta f vars (vars.map (· ++ "S"))) = .ok gs ∧
        List.Forall₂ (fun (g : Frame) raw => g.index.length = (consecutive raw).length ∧
          g.col "Time" = .ok ((consecutive raw).map (fun p => some (p.2.1 - p.1.1))) ∧
          (∀ (i : Nat) (v : Label), vars[i]? = some v → g.col (v ++ "S") = .ok ((consecutive raw).map (fun p => cellOf i p.2))) ∧
          (∀ (i : Nat) (v : Label), vars[i]? = some v → g.col v = .ok ((consecutive raw).map (curCell vars i)))) gs raws := by
    intro frames raws h
    induction h with
    | nil => exact ⟨[], rfl, .nil⟩
    | @cons f raw fs rs h _ ih =>
      obtain ⟨gs, e, hgs⟩ := ih
      obtain ⟨g, eg, h1, h2, h3, h4, _⟩ := computeRowDelta_spec h.1 ht (fun v _ => append_S_ne_Time v) h.2
      refine ⟨g :: gs, by rw [List.mapM_cons, eg, e]; rfl, .cons ⟨h1, h2, h3, ?_⟩ hgs⟩
      intro i v hiv
      have hgd : vars.getD i "" = v := by simp [List.getD, hiv]
      unfold curCell
      rw [hgd]
      cases hj : vars.findIdx? (fun w => decide (w ++ "S" = v)) with
      | none =>
        dsimp only
        apply h4 i v hiv
        intro w hw
        have := List.findIdx?_eq_none_iff.1 hj w hw
        simpa using this
      | some j =>
        dsimp only
        obtain ⟨hjlt, hj1, _⟩ := List.findIdx?_eq_some_iff_getElem.1 hj
        simp only [decide_eq_true_eq] at hj1
        have := h3 j _ (List.getElem?_eq_getElem hjlt)
        rw [hj1] at this
        exact this
  obtain ⟨gs, egs, hgs⟩ := step h
  have hgne : gs ≠ [] := by
    rintro rfl
    cases hgs
    cases h
    exact hne rfl
  obtain ⟨C, eC, hCidx, _, hCcol⟩ := Frame.concat_ok hgne
  -- columns of the concatenation
  have hcolC : ∀ (n : String) (G : (ℚ × List ℤ) × (ℚ × List ℤ) → Cell),
      List.Forall₂ (fun (g : Frame) raw => g.col n = .ok ((consecutive raw).map G)) gs raws →
      C.col n = .ok ((raws.flatMap consecutive).map G) := by
    intro n G hG
    have hF : ∀ g ∈ gs, g.col n = .ok (match g.col n with | .ok c => c | .error _ => []) := by
      intro g hg
      have : ∀ {gs : List Frame} {raws : List RawTraj},
          List.Forall₂ (fun (g : Frame) raw => g.col n = .ok ((consecutive raw).map G)) gs raws → g ∈ gs → ∃ c, g.col n = .ok c := by
        intro gs raws h hg
        induction h with
        | nil => simp at hg
        | cons h _ ih =>
          rcases List.mem_cons.1 hg with rfl | hg
          · exact ⟨_, h⟩
          · exact ih hg
      obtain ⟨c, hc⟩ := this hG hg
      rw [hc]
    rw [hCcol n _ hF]
    congr 1
    exact flatMap_cols hG
  have hT : C.col "Time" = .ok ((raws.flatMap consecutive).map (fun p => some (p.2.1 - p.1.1))) :=
    hcolC _ _ (hgs.imp (fun _ _ h => h.2.1))
  have hS : (vars.map (· ++ "S")).mapM C.col
      = .ok ((List.range vars.length).map (fun i => (raws.flatMap consecutive).map (fun p => cellOf i p.2))) := by
    rw [List.mapM_map]
    exact mapM_getD (fun i v hiv => hcolC _ _ (hgs.imp (fun _ _ h => h.2.2.1 i v hiv)))
  have hV : vars.mapM C.col = .ok ((List.range vars.length).map (fun i => (raws.flatMap consecutive).map (curCell vars i))) :=
    mapM_getD (fun i v hiv => hcolC _ _ (hgs.imp (fun _ _ h => h.2.2.2 i v hiv)))
  have hlen : C.index.length = (raws.flatMap consecutive).length := by
    rw [hCidx]
    exact flatMap_index (hgs.imp (fun _ _ h => h.1))
  refine ⟨⟨C.index, _ :: (_ ++ _)⟩, ?_, hlen, rfl⟩
  unfold computeAllDeltas
  rw [if_neg hv]
  dsimp only
  rw [egs]
  simp only [Except.bind_ok']
  rw [eC]
  simp only [Except.bind_ok']
  unfold Frame.select
  rw [List.cons_append, List.mapM_cons, hT, mapM_append_ok hV hS]
  simp only [Except.bind_ok', Except.pure_eq_ok', List.zip_cons_cons]
  rw [List.zip_append (by simp)]

/-- The integer in a state cell (cells of well-formed samples always hold one). -/
def cellZ (c : Cell) : ℤ := match cellInt c with | .ok z => z | .error _ => 0

/-- Reading a frame of known columns row by row. -/
theorem buildList_spec {α} {C : Frame} {cs : List α} {T : α → ℚ} {hdr : List String} {G : List (α → Cell)}
    (hlen : C.index.length = cs.length) (tn : String) (hh : hdr.length = G.length)
    (hcols : C.cols = (tn, cs.map (fun p => some (T p))) :: hdr.zip (G.map (fun g => cs.map g)))
    (hG : ∀ g ∈ G, ∀ p ∈ cs, cellInt (g p) = .ok (cellZ (g p))) :
    buildListOfSamplesArray C = .ok (cs.map T, cs.map (fun p => G.map (fun g => cellZ (g p)))) := by
  unfold buildListOfSamplesArray
  rw [hcols]
  dsimp only
  rw [List.mapM_map, mapM_ok_map (f := cellTime ∘ fun p => some (T p)) (g := T) (fun p _ => rfl)]
  simp only [Except.bind_ok']
  have hrow : ∀ k, k < cs.length → (hdr.zip (G.map (fun g => cs.map g))).mapM (fun p => do cellInt (← pyGet p.2 k))
      = .ok (match cs[k]? with | some p => G.map (fun g => cellZ (g p)) | none => []) := by
    intro k hk
    have e1 : ∀ (l : List (String × List Cell)), l.mapM (fun p => do cellInt (← pyGet p.2 k))
        = (l.map Prod.snd).mapM (fun c => do cellInt (← pyGet c k)) := by
      intro l; rw [List.mapM_map]; rfl
    rw [e1, List.map_snd_zip (by simp [hh]), List.mapM_map]
    have hpk : cs[k]? = some cs[k] := List.getElem?_eq_getElem hk
    rw [hpk]
    apply mapM_ok_map
    intro g hg
    have : pyGet (cs.map g) k = .ok (g cs[k]) := by rw [pyGet_ok, List.getElem?_map, hpk]; rfl
    show (do cellInt (← pyGet (cs.map g) k)) = _
    rw [this]
    exact hG g hg _ (List.getElem_mem hk)
  rw [hlen, mapM_ok_map (g := fun k => (match cs[k]? with | some p => G.map (fun g => cellZ (g p)) | none => []))
    (fun k hk => hrow k (List.mem_range.1 hk))]
  simp only [Except.bind_ok', Except.pure_eq_ok', Except.ok.injEq, Prod.mk.injEq, true_and]
  symm
  apply ext_map_range (by simp)
  intro i hi
  simp [hi]

end PyCTBN
