import Verif.Props.Json

/-!
# A value missing in the last row of a trajectory is read as state 0 (C216)
-/

namespace PyCTBN
open Spec

/-- A missing value taken as 0. -/
def Spec.zeroIfMissing : Cell → Cell
  | some q => some q
  | none => some 0

/-- The frame in which 0 is written where the last row misses the state of a variable. The first column, which holds the times, is left alone. -/
def Spec.withLastZero (f : Frame) : Frame :=
  match f.cols with
  | [] => f
  | t :: rest => ⟨f.index, t :: rest.map (fun p => (p.1, p.2.dropLast ++ p.2.getLast?.toList.map zeroIfMissing))⟩

/-- Two columns that differ at most in the last row. -/
def SameButLast (c d : List Cell) : Prop := c.length = d.length ∧ c.dropLast = d.dropLast

theorem keepRows_congr {idx : List ℤ} {l : ℤ} (hl : idx.getLast? = some l) {c d : List Cell} (hc : c.length = idx.length)
    (h : SameButLast c d) : Frame.keepRows idx l c = Frame.keepRows idx l d := by
  obtain ⟨h1, h2⟩ := h
  have hne : idx ≠ [] := by rintro rfl; simp at hl
  have hcne : c ≠ [] := by rintro rfl; exact hne (List.length_eq_zero_iff.1 hc.symm)
  have hdne : d ≠ [] := by rintro rfl; simp at h1; exact hcne h1
  rw [← List.dropLast_append_getLast hne, ← List.dropLast_append_getLast hcne, ← List.dropLast_append_getLast hdne, ← h2]
  have e : idx.getLast hne = l := by rw [List.getLast?_eq_some_getLast hne] at hl; exact Option.some.inj hl
  rw [e]
  unfold Frame.keepRows
  have hlen : idx.dropLast.length = c.dropLast.length := by simp [hc]
  rw [List.zip_append hlen, List.zip_append hlen]
  simp

theorem fillInt_shift_congr (c : List Cell) : fillInt (shiftUp (c.dropLast ++ c.getLast?.toList.map zeroIfMissing)) = fillInt (shiftUp c) := by
  rcases List.eq_nil_or_concat c with rfl | ⟨c, x, rfl⟩
  · rfl
  · simp only [List.concat_eq_append, List.dropLast_concat, List.getLast?_append, List.getLast?_singleton, Option.some_or, Option.toList_some, List.map_cons, List.map_nil]
    have hx : fillInt [zeroIfMissing x] = fillInt [x] := by cases x <;> rfl
    cases c with
    | nil => rfl
    | cons a c =>
      simp only [List.cons_append, shiftUp]
      unfold fillInt at *
      simp only [List.map_append] at *
      rw [hx]

/-- Frames with the same row labels and column names whose columns agree but for the last row. -/
structure FramesClose (f g : Frame) : Prop where
  index : f.index = g.index
  cols : List.Forall₂ (fun p q => p.1 = q.1 ∧ p.2.length = f.index.length ∧ SameButLast p.2 q.2) f.cols g.cols

theorem FramesClose.names {f g : Frame} (h : FramesClose f g) : f.names = g.names := by
  unfold Frame.names
  have := h.cols
  generalize f.cols = a at this
  generalize g.cols = b at this
  induction this with
  | nil => rfl
  | cons h1 _ ih => rw [List.map_cons, List.map_cons, h1.1, ih]

theorem FramesClose.set {f g : Frame} (h : FramesClose f g) (n : String) {v : List Cell} (hv : v.length = f.index.length) :
    FramesClose (f.setCol n v) (g.setCol n v) := by
  have hn := h.names
  unfold Frame.setCol
  rw [← hn]
  split_ifs with hm
  · refine ⟨h.index, ?_⟩
    dsimp only
    rw [List.forall₂_map_left_iff, List.forall₂_map_right_iff]
    refine h.cols.imp ?_
    intro p q hpq
    rw [← hpq.1]
    split_ifs with e
    · exact ⟨rfl, hv, rfl, rfl⟩
    · exact ⟨hpq.1 ▸ rfl, hpq.2.1, hpq.2.2⟩
  · refine ⟨h.index, ?_⟩
    dsimp only
    exact List.rel_append h.cols (List.Forall₂.cons ⟨rfl, hv, rfl, rfl⟩ List.Forall₂.nil)

theorem FramesClose.fold {kvs : List (String × List Cell)} : ∀ {f g : Frame}, FramesClose f g → (∀ p ∈ kvs, p.2.length = f.index.length) →
    FramesClose (kvs.foldl (fun f p => f.setCol p.1 p.2) f) (kvs.foldl (fun f p => f.setCol p.1 p.2) g) := by
  induction kvs with
  | nil => intro f g h _; exact h
  | cons p kvs ih =>
    intro f g h hl
    rw [List.foldl_cons, List.foldl_cons]
    refine ih (h.set p.1 (hl p (by simp))) ?_
    intro q hq
    rw [Frame.index_setCol]
    exact hl q (by simp [hq])

theorem FramesClose.drop {f g : Frame} (h : FramesClose f g) (hne : f.index ≠ []) : f.dropLastLabel = g.dropLastLabel := by
  unfold Frame.dropLastLabel
  rw [← h.index, List.getLast?_eq_some_getLast hne]
  dsimp only
  congr 1
  have key : ∀ {a b : List (String × List Cell)}, List.Forall₂ (fun p q => p.1 = q.1 ∧ p.2.length = f.index.length ∧ SameButLast p.2 q.2) a b →
      a.map (fun p => (p.1, Frame.keepRows f.index (f.index.getLast hne) p.2)) = b.map (fun p => (p.1, Frame.keepRows f.index (f.index.getLast hne) p.2)) := by
    intro a b hab
    induction hab with
    | nil => rfl
    | cons h1 _ ih =>
      rw [List.map_cons, List.map_cons, ih, h1.1, keepRows_congr (List.getLast?_eq_some_getLast hne) h1.2.1 h1.2.2]
  exact key h.cols

theorem shiftUp_length (c : List Cell) : (shiftUp c).length = c.length := by cases c <;> simp [shiftUp]

theorem seriesDiff_length (c : List Cell) : (seriesDiff c).length = c.length := by cases c <;> simp [seriesDiff]

theorem sameButLast_zero (c : List Cell) : SameButLast c (c.dropLast ++ c.getLast?.toList.map zeroIfMissing) := by
  rcases List.eq_nil_or_concat c with rfl | ⟨c, x, rfl⟩
  · exact ⟨rfl, rfl⟩
  · simp [SameButLast]

theorem withLastZero_names (f : Frame) : (withLastZero f).names = f.names := by
  unfold withLastZero Frame.names
  cases hc : f.cols with
  | nil => simp [hc]
  | cons t rest => simp [Function.comp_def]

theorem withLastZero_index (f : Frame) : (withLastZero f).index = f.index := by
  unfold withLastZero
  cases f.cols <;> rfl

theorem computeRowDelta_lastZero {f : Frame} (hw : ∀ p ∈ f.cols, p.2.length = f.index.length) (header shifted : List String) :
    computeRowDelta f header shifted = computeRowDelta (withLastZero f) header shifted := by
  obtain ⟨idx, cols⟩ := f
  cases cols with
  | nil => rfl
  | cons t rest =>
    obtain ⟨tn, tc⟩ := t
    unfold computeRowDelta withLastZero
    dsimp only at *
    simp only [Except.bind_ok']
    generalize hA : (⟨idx, (tn, shiftUp (seriesDiff tc)) :: rest⟩ : Frame) = A
    generalize hB : (⟨idx, (tn, shiftUp (seriesDiff tc)) :: rest.map (fun p : String × List Cell => (p.1, p.2.dropLast ++ p.2.getLast?.toList.map zeroIfMissing))⟩ : Frame) = B
    have hcl : FramesClose A B := by
      subst hA; subst hB
      refine ⟨rfl, List.Forall₂.cons ⟨rfl, ?_, rfl, rfl⟩ ?_⟩
      · rw [shiftUp_length, seriesDiff_length]; exact hw (tn, tc) (by simp)
      · rw [List.forall₂_map_right_iff, List.forall₂_same]
        intro p hp
        exact ⟨rfl, hw _ (by simp [hp]), sameButLast_zero _⟩
    have hidx : A.index = idx := by subst hA; rfl
    have hcol : ∀ n, (A.col n).map (fun c => fillInt (shiftUp c)) = (B.col n).map (fun c => fillInt (shiftUp c)) := by
      intro n
      subst hA; subst hB
      unfold Frame.col
      simp only [List.find?_cons]
      by_cases h : tn = n
      · simp [h]
      · simp only [h, decide_false]
        rw [List.find?_map]
        have : ((fun p : String × List Cell => decide (p.1 = n)) ∘ fun p : String × List Cell =>
          (p.1, p.2.dropLast ++ p.2.getLast?.toList.map zeroIfMissing)) = fun p => decide (p.1 = n) := by funext p; rfl
        rw [this]
        cases rest.find? (fun p => decide (p.1 = n)) with
        | none => rfl
        | some p => simp [Except.map, fillInt_shift_congr]
    have hlen : ∀ n c, A.col n = .ok c → c.length = idx.length := by
      intro n c h
      subst hA
      unfold Frame.col at h
      cases hf : List.find? (fun p : String × List Cell => decide (p.1 = n)) ((tn, shiftUp (seriesDiff tc)) :: rest) with
      | none => rw [hf] at h; cases h
      | some p =>
        rw [hf] at h
        cases h
        have := List.mem_of_find?_eq_some hf
        rcases List.mem_cons.1 this with rfl | hp
        · rw [shiftUp_length, seriesDiff_length]; exact hw (tn, tc) (by simp)
        · exact hw _ (by simp [hp])
    have hm : ∀ hs : List String, (hs.mapM A.col).map (fun cs => cs.map (fun c => fillInt (shiftUp c))) =
        (hs.mapM B.col).map (fun cs => cs.map (fun c => fillInt (shiftUp c))) := by
      intro hs
      induction hs with
      | nil => rfl
      | cons n hs ih =>
        rw [List.mapM_cons, List.mapM_cons]
        have := hcol n
        cases h1 : A.col n <;> cases h2 : B.col n <;> rw [h1, h2] at this <;> simp [Except.map] at this
        · subst this; rfl
        · cases h3 : hs.mapM A.col <;> cases h4 : hs.mapM B.col <;> rw [h3, h4] at ih <;> simp [Except.map] at ih
          · subst ih; rfl
          · simp [bind, Except.bind, pure, Except.pure, Except.map, this, ih]
    have hml : ∀ (hs : List String) cs, hs.mapM A.col = .ok cs → ∀ c ∈ cs, c.length = idx.length := by
      intro hs
      induction hs with
      | nil => intro cs h; cases h; simp
      | cons n hs ih =>
        intro cs h
        rw [List.mapM_cons] at h
        cases h1 : A.col n with
        | error e => rw [h1] at h; cases h
        | ok c =>
          cases h2 : hs.mapM A.col with
          | error e => rw [h1, h2] at h; cases h
          | ok cs' =>
            rw [h1, h2] at h
            cases h
            intro c' hc'
            rcases List.mem_cons.1 hc' with rfl | hc'
            · exact hlen _ _ h1
            · exact ih _ h2 _ hc'
    have := hm header
    cases h1 : header.mapM A.col <;> cases h2 : header.mapM B.col <;> rw [h1, h2] at this <;> simp only [Except.map, Except.error.injEq, Except.ok.injEq, reduceCtorEq] at this
    · subst this; rfl
    · rename_i cs ds
      simp only [Except.bind_ok']
      rw [this]
      show Except.ok _ = Except.ok _
      congr 1
      by_cases hne : idx = []
      · -- no rows at all
        subst hne
        have hAB : A = B := by
          subst hA; subst hB
          have : rest.map (fun p : String × List Cell => (p.1, p.2.dropLast ++ p.2.getLast?.toList.map zeroIfMissing)) = rest := by
            conv_rhs => rw [← List.map_id rest]
            apply List.map_congr_left
            intro p hp
            have := hw p (by simp [hp])
            obtain ⟨a, b⟩ := p
            cases b with
            | nil => rfl
            | cons => simp at this
          rw [this]
        rw [hAB]
      · have hf := FramesClose.fold (kvs := shifted.zip (ds.map (fun c => fillInt (shiftUp c)))) hcl (by
          intro p hp
          rw [← this] at hp
          have := List.of_mem_zip hp |>.2
          obtain ⟨c, hc, e⟩ := List.mem_map.1 this
          rw [← e, hidx, ← hml header cs h1 c hc]
          unfold fillInt
          rw [List.length_map, shiftUp_length])
        apply hf.drop
        rw [Frame.index_foldl_setCol, hidx]
        exact hne

theorem computeAllDeltas_lastZero {frames : List Frame} (hw : ∀ f ∈ frames, ∀ p ∈ f.cols, p.2.length = f.index.length) (sorter : List String) :
    computeAllDeltas sorter frames = computeAllDeltas sorter (frames.map withLastZero) := by
  unfold computeAllDeltas
  have : ∀ shifted, frames.mapM (fun f => computeRowDelta f sorter shifted) =
      (frames.map withLastZero).mapM (fun f => computeRowDelta f sorter shifted) := by
    intro shifted
    clear * - hw
    induction frames with
    | nil => rfl
    | cons f fs ih =>
      rw [List.map_cons, List.mapM_cons, List.mapM_cons, ih (fun g hg => hw g (by simp [hg])), ← computeRowDelta_lastZero (hw f (by simp))]
  dsimp only
  rw [this]

/-- Reading tables and trajectories: a missing state in the last row and the state 0 there give the same outcome, whether imported from
frames or by a `JsonImporter`, for every header. -/
theorem missing_last_state_is_zero {frames : List Frame} (hw : ∀ f ∈ frames, ∀ p ∈ f.cols, p.2.length = f.index.length) :
    (∀ timeKey vt es, jsonImportData timeKey frames vt es = jsonImportData timeKey (frames.map withLastZero) vt es) ∧
    (∀ vt es header, sampleImportData frames vt es header = sampleImportData (frames.map withLastZero) vt es header) := by
  have hall := computeAllDeltas_lastZero hw
  constructor
  · intro timeKey vt es
    unfold jsonImportData jsonSorter
    simp only [← hall]
    cases frames with
    | nil => rfl
    | cons f fs =>
      simp only [pyGet, List.map_cons, List.getElem?_cons_zero, Except.bind_ok', withLastZero_names]
  · intro vt es header
    unfold sampleImportData
    simp only [← hall]
    cases header with
    | some h => rfl
    | none =>
      cases frames with
      | nil => rfl
      | cons f fs => simp only [pyGet, List.map_cons, List.getElem?_cons_zero, Except.bind_ok', withLastZero_names]

/-- `null` replaced by 0. -/
def Spec.orZero : JVal → JVal
  | .null => .num 0
  | v => v

/-- A record completed to all columns: every variable it lacks, or has the value `null` for, gets 0. -/
def Spec.completedRow (vars : List String) (r : List (String × JVal)) : List (String × JVal) :=
  vars.map (fun n => (n, orZero (recordCell r n)))

/-- A trajectory of a file: rows with all columns, then a last row with the time and some of the variables. -/
structure Spec.LastRowIncomplete (header : List String) (rows : List (List (String × JVal))) (t : JVal) (last : List (String × JVal)) : Prop where
  distinct : header.Nodup
  some_row : rows ≠ []
  full : ∀ r ∈ rows, r.map Prod.fst = header
  known : ∀ p ∈ last, p.1 ∈ header.tail
  time : header ≠ []

theorem recordHeader_known {rs : List (List (String × JVal))} {header : List String} (hr : ∀ r ∈ rs, r.map Prod.fst = header) (hne : rs ≠ [])
    {last : List (String × JVal)} (hl : ∀ p ∈ last, p.1 ∈ header) : recordHeader (rs ++ [last]) = header := by
  have := recordHeader_uniform hr hne
  unfold recordHeader at *
  rw [List.foldl_append, this]
  simp only [List.foldl_cons, List.foldl_nil]
  have : (last.map Prod.fst).filter (fun n => decide (n ∉ header)) = [] := by
    rw [List.filter_eq_nil_iff]
    intro a ha
    obtain ⟨p, hp, rfl⟩ := List.mem_map.1 ha
    simp [hl p hp]
  rw [this, List.append_nil]

theorem mapM_cells_length {c : List JVal} {d : List Cell} (h : c.mapM JVal.cell = .ok d) : d.length = c.length := by
  induction c generalizing d with
  | nil => cases h; rfl
  | cons a c ih =>
    rw [List.mapM_cons] at h
    cases h1 : a.cell with
    | error e => rw [h1] at h; cases h
    | ok x =>
      cases h2 : c.mapM JVal.cell with
      | error e => rw [h1, h2] at h; cases h
      | ok xs => rw [h1, h2] at h; cases h; simp [ih h2]

/-- The column with the completed last value. -/
theorem column_completed (c : List JVal) (v : JVal) :
    (c ++ [orZero v]).mapM JVal.cell =
      ((c ++ [v]).mapM JVal.cell).map (fun d => d.dropLast ++ d.getLast?.toList.map zeroIfMissing) := by
  have hlast : ∀ w, (c ++ [w]).mapM JVal.cell = (do let d ← c.mapM JVal.cell; let x ← w.cell; return d ++ [x]) := by
    intro w
    clear v
    induction c with
    | nil => rw [List.nil_append, List.mapM_cons]; cases w.cell <;> rfl
    | cons a c ih =>
      rw [List.cons_append, List.mapM_cons, List.mapM_cons, ih]
      cases a.cell <;> [rfl; (cases c.mapM JVal.cell <;> [rfl; (cases w.cell <;> rfl)])]
  rw [hlast, hlast]
  cases c.mapM JVal.cell with
  | error e => rfl
  | ok d =>
    cases v <;> simp [JVal.cell, bind, Except.bind, pure, Except.pure, Except.map, zeroIfMissing, orZero]

theorem toFrame_completed {header : List String} {rows : List (List (String × JVal))} {t : JVal} {last : List (String × JVal)}
    (h : LastRowIncomplete header rows t last) :
    (recordsFrame (rows ++ [(header.headD "", t) :: completedRow header.tail last])).toFrame =
      ((recordsFrame (rows ++ [(header.headD "", t) :: last])).toFrame).map withLastZero ∧
    ∀ f, (recordsFrame (rows ++ [(header.headD "", t) :: last])).toFrame = .ok f → ∀ p ∈ f.cols, p.2.length = f.index.length := by
  obtain ⟨tk, vars, rfl⟩ : ∃ tk vars, header = tk :: vars := by
    cases header with
    | nil => exact absurd rfl h.time
    | cons a b => exact ⟨a, b, rfl⟩
  have hk : tk ∉ vars := (List.nodup_cons.1 h.distinct).1
  have hknown := h.known
  simp only [List.headD_cons, List.tail_cons] at *
  have e1 : recordHeader (rows ++ [(tk, t) :: last]) = tk :: vars := recordHeader_known h.full h.some_row (by
    intro p hp
    rcases List.mem_cons.1 hp with rfl | hp
    · simp
    · exact List.mem_cons_of_mem _ (hknown p hp))
  have e2 : recordHeader (rows ++ [(tk, t) :: completedRow vars last]) = tk :: vars := recordHeader_known h.full h.some_row (by
    intro p hp
    rcases List.mem_cons.1 hp with rfl | hp
    · simp
    · obtain ⟨n, hn, rfl⟩ := List.mem_map.1 hp
      exact List.mem_cons_of_mem _ hn)
  have cT : ∀ r, recordCell ((tk, t) :: r) tk = t := by intro r; simp [recordCell]
  have cV : ∀ r n, n ∈ vars → recordCell ((tk, t) :: r) n = recordCell r n := by
    intro r n hn
    have : tk ≠ n := by rintro rfl; exact hk hn
    simp [recordCell, this]
  have cC : ∀ n ∈ vars, recordCell (completedRow vars last) n = orZero (recordCell last n) := by
    intro n hn
    unfold completedRow
    have := find?_name_map (l := vars.map (fun n => (n, ()))) (by
      rw [List.map_map]
      show (vars.map (fun n => n)).Nodup
      rw [List.map_id']
      exact (List.nodup_cons.1 h.distinct).2)
      (fun p => orZero (recordCell last p.1)) (List.mem_map.2 ⟨n, hn, rfl⟩)
    rw [List.map_map] at this
    show (match (vars.map (fun n => (n, orZero (recordCell last n)))).find? (fun p => decide (p.1 = n)) with | some p => p.2 | none => .null) = _
    have hf : ((fun p : String × Unit => (p.1, orZero (recordCell last p.1))) ∘ fun n : String => (n, ())) =
      fun n => (n, orZero (recordCell last n)) := rfl
    rw [hf] at this
    rw [this]
  constructor
  · unfold recordsFrame JFrame.toFrame
    rw [e1, e2]
    dsimp only
    simp only [List.map_cons, List.map_append, List.map_nil, cT, List.mapM_cons]
    have hvars : ∀ l : List String, (∀ n ∈ l, n ∈ vars) →
        (l.map (fun n => (n, rows.map (fun r => recordCell r n) ++ [recordCell ((tk, t) :: completedRow vars last) n]))).mapM (fun p : String × List JVal => do
          let c ← p.2.mapM JVal.cell
          return (p.1, c)) =
        ((l.map (fun n => (n, rows.map (fun r => recordCell r n) ++ [recordCell ((tk, t) :: last) n]))).mapM (fun p : String × List JVal => do
          let c ← p.2.mapM JVal.cell
          return (p.1, c))).map (fun cs : List (String × List Cell) => cs.map (fun p : String × List Cell => (p.1, p.2.dropLast ++ p.2.getLast?.toList.map zeroIfMissing))) := by
      intro l hl
      induction l with
      | nil => rfl
      | cons n l ih =>
        rw [List.map_cons, List.map_cons, List.mapM_cons, List.mapM_cons, ih (fun m hm => hl m (by simp [hm]))]
        rw [cV _ n (hl n (by simp)), cV _ n (hl n (by simp)), cC n (hl n (by simp))]
        dsimp only
        rw [column_completed]
        cases (rows.map (fun r => recordCell r n) ++ [recordCell last n]).mapM JVal.cell with
        | error e => rfl
        | ok d =>
          simp only [Except.map, Except.bind_ok']
          generalize (l.map (fun n => (n, rows.map (fun r => recordCell r n) ++ [recordCell ((tk, t) :: last) n]))).mapM (fun p : String × List JVal => do
            let c ← p.2.mapM JVal.cell
            return (p.1, c)) = X
          cases X <;> rfl
    rw [hvars vars (fun _ h => h)]
    generalize (rows.map (fun r => recordCell r tk) ++ [t]).mapM JVal.cell = A
    generalize (vars.map (fun n => (n, rows.map (fun r => recordCell r n) ++ [recordCell ((tk, t) :: last) n]))).mapM (fun p : String × List JVal => do
      let c ← p.2.mapM JVal.cell
      return (p.1, c)) = X
    cases A with
    | error e => rfl
    | ok a =>
      cases X with
      | error e => rfl
      | ok x => simp [bind, Except.bind, pure, Except.pure, Except.map, withLastZero]
  · intro f hf p hp
    unfold recordsFrame JFrame.toFrame at hf
    rw [e1] at hf
    dsimp only at hf
    have key : ∀ (l : List String) cs, (l.map (fun n => (n, (rows ++ [(tk, t) :: last]).map (fun r => recordCell r n)))).mapM (fun p : String × List JVal => do
          let c ← p.2.mapM JVal.cell
          return (p.1, c)) = .ok cs → ∀ q ∈ cs, q.2.length = (rows ++ [(tk, t) :: last]).length := by
      intro l
      induction l with
      | nil => intro cs h; cases h; simp
      | cons n l ih =>
        intro cs h
        rw [List.map_cons, List.mapM_cons] at h
        dsimp only at h
        cases h1 : ((rows ++ [(tk, t) :: last]).map (fun r => recordCell r n)).mapM JVal.cell with
        | error e => rw [h1] at h; cases h
        | ok d =>
          rw [h1] at h
          simp only [Except.bind_ok', pure_bind] at h
          generalize hX : (l.map (fun n => (n, (rows ++ [(tk, t) :: last]).map (fun r => recordCell r n)))).mapM (fun p : String × List JVal => do
            let c ← p.2.mapM JVal.cell
            return (p.1, c)) = X at h
          cases X with
          | error e => cases h
          | ok x =>
            cases h
            intro q hq
            rcases List.mem_cons.1 hq with rfl | hq
            · show d.length = _
              rw [mapM_cells_length h1, List.length_map]
            · exact ih _ hX q hq
    generalize hX : List.mapM (fun p : String × List JVal => do
            let c ← p.2.mapM JVal.cell
            return (p.1, c)) ((tk :: vars).map (fun n => (n, (rows ++ [(tk, t) :: last]).map (fun r => recordCell r n)))) = X at hf
    cases X with
    | error e => cases hf
    | ok x =>
      cases hf
      dsimp only at hp ⊢
      rw [key _ _ hX p hp]
      simp

/-- A trajectory of a file: the columns, the complete rows, and what the last row holds - the time and the states of some variables. -/
structure Spec.ShortTraj where
  header : List String
  rows : List (List (String × JVal))
  time : JVal
  last : List (String × JVal)

/-- As it stands in the file. -/
def Spec.ShortTraj.written (tr : ShortTraj) : JVal := .arr ((tr.rows ++ [(tr.header.headD "", tr.time) :: tr.last]).map JVal.obj)

/-- With zeros where the last row lacks a state. -/
def Spec.ShortTraj.completed (tr : ShortTraj) : JVal :=
  .arr ((tr.rows ++ [(tr.header.headD "", tr.time) :: completedRow tr.header.tail tr.last]).map JVal.obj)

/-- **C216**.  In a file whose trajectories end in rows that lack variables, the lacking variables are taken to be in state 0: importing gives
exactly what it gives with zeros written there - whatever else the file holds under the other keys. -/
theorem incomplete_last_row_is_zero (k : JsonKeys) (trajs : List ShortTraj)
    (h : ∀ tr ∈ trajs, LastRowIncomplete tr.header tr.rows tr.time tr.last) (fields : List (String × JVal))
    (hs : k.samples ≠ k.structureLabel) (hv : k.samples ≠ k.variablesLabel) (hc : ∀ c, k.cims = some c → k.samples ≠ c) :
    jsonImportFile k (.arr [.obj ((k.samples, .arr (trajs.map ShortTraj.written)) :: fields)]) 0 =
    jsonImportFile k (.arr [.obj ((k.samples, .arr (trajs.map ShortTraj.completed)) :: fields)]) 0 := by
  have hm : (trajs.map ShortTraj.completed).mapM (fun s => do (← dataFrame s).toFrame) =
      ((trajs.map ShortTraj.written).mapM (fun s => do (← dataFrame s).toFrame)).map (fun fs => List.map withLastZero fs) ∧
      ∀ fs, (trajs.map ShortTraj.written).mapM (fun s => do (← dataFrame s).toFrame) = .ok fs →
        ∀ f ∈ fs, ∀ p ∈ f.cols, p.2.length = f.index.length := by
    induction trajs with
    | nil => exact ⟨rfl, by intro fs h; cases h; simp⟩
    | cons tr trajs ih =>
      obtain ⟨i1, i2⟩ := ih (fun tr h' => h tr (by simp [h']))
      obtain ⟨t1, t2⟩ := toFrame_completed (h tr (by simp))
      simp only [List.map_cons, List.mapM_cons]
      rw [i1]
      have w1 : dataFrame tr.written = .ok (recordsFrame (tr.rows ++ [(tr.header.headD "", tr.time) :: tr.last])) := dataFrame_arr _
      have w2 : dataFrame tr.completed = .ok (recordsFrame (tr.rows ++ [(tr.header.headD "", tr.time) :: completedRow tr.header.tail tr.last])) := dataFrame_arr _
      simp only [w1, w2, Except.bind_ok']
      rw [t1]
      constructor
      · cases (recordsFrame (tr.rows ++ [(tr.header.headD "", tr.time) :: tr.last])).toFrame with
        | error e => rfl
        | ok f =>
          generalize List.mapM (fun s => do (← dataFrame s).toFrame) (trajs.map ShortTraj.written) = X
          cases X <;> rfl
      · intro fs hfs
        cases hf : (recordsFrame (tr.rows ++ [(tr.header.headD "", tr.time) :: tr.last])).toFrame with
        | error e => rw [hf] at hfs; cases hfs
        | ok f =>
          rw [hf] at hfs
          simp only [Except.bind_ok'] at hfs
          generalize hX : List.mapM (fun s => do (← dataFrame s).toFrame) (trajs.map ShortTraj.written) = X at hfs i2
          cases X with
          | error e => cases hfs
          | ok x =>
            cases hfs
            intro g hg
            rcases List.mem_cons.1 hg with rfl | hg
            · exact t2 g hf
            · exact i2 x rfl g hg
  obtain ⟨h1, h2⟩ := hm
  unfold jsonImportFile
  simp only [readJsonFile, pyGetZ, le_refl, if_true, Int.toNat_zero, pyGet, List.getElem?_cons_zero, Except.bind_ok', JVal.key, List.find?_cons, decide_true, JVal.items]
  rw [h1]
  cases hX : (trajs.map ShortTraj.written).mapM (fun s => do (← dataFrame s).toFrame) with
  | error e => rfl
  | ok fs =>
    simp only [Except.map, Except.bind_ok']
    cases fs with
    | nil => rfl
    | cons f fs =>
      have := fun sorter => computeAllDeltas_lastZero (h2 _ hX) sorter
      simp only [List.map_cons, List.getElem?_cons_zero, Except.bind_ok'] at this ⊢
      unfold jsonSorter
      rw [withLastZero_names]
      have ho : ∀ trs, optKey (JVal.obj ((k.samples, trs) :: fields)) k.cims = optKey (JVal.obj fields) k.cims := by
        intro trs
        cases hk : k.cims with
        | none => rfl
        | some c => simp [optKey, JVal.key, hc c hk]
      simp only [this, hs, hv, decide_false, ho]

/-- Two rows and a last row that has only the time: the last move of "X" is counted as one to state 0. -/
def shortExample : ShortTraj where
  header := ["Time", "X"]
  rows := [[("Time", .num 0), ("X", .num 0)], [("Time", .num 1), ("X", .num 1)]]
  time := .num 2
  last := []

def shortKeys : JsonKeys := ⟨"samples", "dyn.str", "variables", "Time", "Name", none⟩

def shortTables : List (String × JVal) := [("dyn.str", .arr []), ("variables", .arr [.obj [("Name", .str "X"), ("Value", .num 2)]])]

example : LastRowIncomplete shortExample.header shortExample.rows shortExample.time shortExample.last where
  distinct := by decide
  some_row := by simp [shortExample]
  full := by simp [shortExample]
  known := by simp [shortExample]
  time := by simp [shortExample]

/-- The rows delivered to the estimators: the variable is in state 0 then 1, and moves from 0 to 1 and from 1 to 0. -/
example : (buildFromFile shortKeys (.arr [.obj (("samples", .arr [shortExample.written]) :: shortTables)]) 0).map
    (fun p => p.trajectories.map (fun t => (t.times, t.rows))) = .ok (some ([1, 1], [[0, 1], [1, 0]])) := by decide +kernel

end PyCTBN
