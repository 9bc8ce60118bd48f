import Verif.Model.Json
import Verif.Lemmas.Importer
import Verif.Lemmas.Export

/-! Reading back what was written. -/

namespace PyCTBN

theorem recordHeader_uniform {rs : List (List (String × JVal))} {header : List String} (hr : ∀ r ∈ rs, r.map Prod.fst = header)
    (hne : rs ≠ []) : recordHeader rs = header := by
  have key : ∀ (rs : List (List (String × JVal))), (∀ r ∈ rs, r.map Prod.fst = header) →
      rs.foldl (fun acc r => acc ++ (r.map Prod.fst).filter (fun n => decide (n ∉ acc))) header = header := by
    intro rs
    induction rs with
    | nil => intro _; rfl
    | cons r rs ih =>
      intro h
      rw [List.foldl_cons, h r (by simp)]
      have : header.filter (fun n => decide (n ∉ header)) = [] := by
        rw [List.filter_eq_nil_iff]; intro a ha; simp [ha]
      rw [this, List.append_nil]
      exact ih (fun r hr => h r (by simp [hr]))
  cases rs with
  | nil => exact absurd rfl hne
  | cons r rs =>
    unfold recordHeader
    rw [List.foldl_cons, hr r (by simp)]
    simp only [List.nil_append, List.not_mem_nil, not_false_eq_true, decide_true, List.filter_true]
    exact key rs (fun r h => hr r (by simp [h]))

theorem find?_name_map {α β : Type} {l : List (String × α)} (hn : (l.map Prod.fst).Nodup) (g : String × α → β) {p : String × α}
    (hp : p ∈ l) : (l.map (fun p => (p.1, g p))).find? (fun q => decide (q.1 = p.1)) = some (p.1, g p) := by
  induction l with
  | nil => simp at hp
  | cons a l ih =>
    rw [List.map_cons, List.nodup_cons] at hn
    rcases List.mem_cons.1 hp with rfl | hp
    · simp
    · rw [List.map_cons, List.find?_cons_of_neg]
      · exact ih hn.2 hp
      · simp only [decide_eq_true_eq]
        intro h
        exact hn.1 (h ▸ List.mem_map_of_mem hp)

theorem recordCell_map {α : Type} {l : List (String × α)} (hn : (l.map Prod.fst).Nodup) (g : String × α → JVal) {p : String × α}
    (hp : p ∈ l) : recordCell (l.map (fun p => (p.1, g p))) p.1 = g p := by
  unfold recordCell
  rw [find?_name_map hn g hp]

theorem mapM_record_obj (rs : List (List (String × JVal))) : (rs.map JVal.obj).mapM JVal.record = .ok rs := by
  induction rs with
  | nil => rfl
  | cons r rs ih => rw [List.map_cons, List.mapM_cons, ih]; rfl

theorem dataFrame_arr (rs : List (List (String × JVal))) : dataFrame (.arr (rs.map JVal.obj)) = .ok (recordsFrame rs) := by
  unfold dataFrame JVal.items
  simp only [Except.bind_ok', mapM_record_obj]
  rfl

/-- A frame as the sampler makes it: rows numbered from 0, columns of that length, distinct names. -/
structure PlainFrame (f : Frame) (n : Nat) : Prop where
  index : f.index = (List.range n).map (fun n : Nat => (n : ℤ))
  cols : ∀ p ∈ f.cols, p.2.length = n
  names : (f.cols.map Prod.fst).Nodup

theorem frame_reads_back {enc : ℚ → ℚ} {f : Frame} {n : Nat} (hf : PlainFrame f n) (hn : 0 < n)
    (henc : ∀ p ∈ f.cols, ∀ q, some q ∈ p.2 → enc q = q) :
    (do (← dataFrame (frameJson enc f)).toFrame) = .ok f := by
  set recs : List (List (String × JVal)) := (List.range n).map (fun k : Nat =>
    f.cols.map (fun p => (p.1, cellJson enc ((p.2[k]?).getD none)))) with hrecs
  have hj : frameJson enc f = .arr (recs.map JVal.obj) := by
    unfold frameJson
    rw [hf.index, hrecs, List.map_map]
    simp
  rw [hj, dataFrame_arr]
  simp only [Except.bind_ok']
  have hhead : recordHeader recs = f.cols.map Prod.fst := by
    apply recordHeader_uniform
    · intro r hr
      obtain ⟨k, _, rfl⟩ := List.mem_map.1 hr
      rw [List.map_map]; rfl
    · rw [hrecs]
      intro h
      have := congrArg List.length h
      simp at this
      omega
  have hframe : recordsFrame recs = ⟨n, f.cols.map (fun p => (p.1, p.2.map (cellJson enc)))⟩ := by
    unfold recordsFrame
    rw [hhead, List.map_map]
    congr 1
    · simp [hrecs]
    · apply List.map_congr_left
      intro p hp
      simp only [Function.comp]
      congr 1
      rw [hrecs, List.map_map]
      apply List.ext_getElem?
      intro k
      rw [List.getElem?_map, List.getElem?_map]
      by_cases hk : k < n
      · rw [List.getElem?_range hk]
        simp only [Option.map_some, Function.comp]
        rw [recordCell_map hf.names (fun p => cellJson enc ((p.2[k]?).getD none)) hp]
        have : k < p.2.length := by rw [hf.cols p hp]; exact hk
        rw [List.getElem?_eq_getElem this]; rfl
      · rw [List.getElem?_eq_none (by simpa using hk), List.getElem?_eq_none (by rw [hf.cols p hp]; omega)]; rfl
  rw [hframe]
  unfold JFrame.toFrame
  simp only
  have hcell : ∀ p ∈ f.cols, (p.2.map (cellJson enc)).mapM JVal.cell = .ok p.2 := by
    intro p hp
    have h := henc p hp
    generalize p.2 = l at h
    induction l with
    | nil => rfl
    | cons c l ih =>
      rw [List.map_cons, List.mapM_cons, ih (fun q hq => h q (by simp [hq]))]
      cases c with
      | none => rfl
      | some q => simp only [cellJson, h q (by simp)]; rfl
  have hcols : (f.cols.map (fun p => (p.1, p.2.map (cellJson enc)))).mapM (fun p => do
      let c ← p.2.mapM JVal.cell
      return (p.1, c)) = .ok f.cols := by
    generalize f.cols = cs at hcell
    induction cs with
    | nil => rfl
    | cons p cs ih =>
      rw [List.map_cons, List.mapM_cons, ih (fun q hq => hcell q (by simp [hq]))]
      simp only [hcell p (by simp)]
      rfl
  rw [hcols]
  simp only [Except.bind_ok']
  rw [← hf.index]
  rfl

theorem frames_read_back {enc : ℚ → ℚ} {fs : List Frame} (hf : ∀ f ∈ fs, ∃ n, 0 < n ∧ PlainFrame f n)
    (henc : ∀ f ∈ fs, ∀ p ∈ f.cols, ∀ q, some q ∈ p.2 → enc q = q) :
    (fs.map (frameJson enc)).mapM (fun s => do (← dataFrame s).toFrame) = .ok fs := by
  induction fs with
  | nil => rfl
  | cons f fs ih =>
    obtain ⟨n, hn, h⟩ := hf f (by simp)
    rw [List.map_cons, List.mapM_cons, ih (fun g hg => hf g (by simp [hg])) (fun g hg => henc g (by simp [hg]))]
    have := frame_reads_back h hn (henc f (by simp))
    rw [this]
    rfl

theorem vars_read_back {labels : List Label} {cards : List Nat} (h : labels.length = cards.length) :
    (do (← dataFrame (varsJson labels cards)).toVars) = .ok ⟨List.range labels.length, labels, cards⟩ := by
  set recs : List (List (String × JVal)) := (labels.zip cards).map (fun p => [("Name", .str p.1), ("Value", .num (p.2 : ℚ))]) with hrecs
  have hj : varsJson labels cards = .arr (recs.map JVal.obj) := by
    unfold varsJson
    rw [hrecs, List.map_map, List.zip, List.map_zipWith]
    rfl
  rw [hj, dataFrame_arr]
  simp only [Except.bind_ok']
  by_cases hl : labels = []
  · subst hl
    have : cards = [] := List.length_eq_zero_iff.1 h.symm
    subst this
    rfl
  have hhead : recordHeader recs = ["Name", "Value"] := by
    apply recordHeader_uniform
    · intro r hr
      obtain ⟨k, _, rfl⟩ := List.mem_map.1 hr
      rfl
    · rw [hrecs]
      intro hh
      have := congrArg List.length hh
      simp only [List.length_map, List.length_zip, List.length_nil, ← h, Nat.min_self] at this
      exact hl (List.length_eq_zero_iff.1 this)
  have hc1 : recs.map (fun r => recordCell r "Name") = labels.map JVal.str := by
    rw [hrecs, List.map_map]
    have : labels = (labels.zip cards).map Prod.fst := by rw [List.map_fst_zip h.le]
    conv_rhs => rw [this]
    rw [List.map_map]
    apply List.map_congr_left
    intro p _
    rfl
  have hc2 : recs.map (fun r => recordCell r "Value") = cards.map (fun c : Nat => JVal.num (c : ℚ)) := by
    rw [hrecs, List.map_map]
    have : cards = (labels.zip cards).map Prod.snd := by rw [List.map_snd_zip h.ge]
    conv_rhs => rw [this]
    rw [List.map_map]
    apply List.map_congr_left
    intro p _
    rfl
  have hsz : recs.length = labels.length := by rw [hrecs]; simp [h]
  have hframe : recordsFrame recs = ⟨labels.length, [("Name", labels.map JVal.str), ("Value", cards.map (fun c : Nat => JVal.num (c : ℚ)))]⟩ := by
    unfold recordsFrame
    rw [hhead, hsz]
    simp only [List.map_cons, List.map_nil, hc1, hc2]
  rw [hframe]
  have e1 : ∀ l : List Label, (l.map JVal.str).mapM JVal.label = .ok l := by
    intro l
    induction l with
    | nil => rfl
    | cons a l ih => rw [List.map_cons, List.mapM_cons, ih]; rfl
  have e2 : ∀ l : List Nat, (l.map (fun c : Nat => JVal.num (c : ℚ))).mapM JVal.nat = .ok l := by
    intro l
    induction l with
    | nil => rfl
    | cons a l ih =>
      rw [List.map_cons, List.mapM_cons, ih]
      simp [JVal.nat]
  unfold JFrame.toVars
  simp only [e1, e2, Except.bind_ok']
  rfl

theorem edges_read_back (table : List Edge) : (do (← dataFrame (edgesJson table)).toEdges) = .ok table := by
  set recs : List (List (String × JVal)) := table.map (fun e => [("From", .str e.1), ("To", .str e.2)]) with hrecs
  have hj : edgesJson table = .arr (recs.map JVal.obj) := by
    unfold edgesJson
    rw [hrecs, List.map_map]
    rfl
  rw [hj, dataFrame_arr]
  simp only [Except.bind_ok']
  by_cases hl : table = []
  · subst hl; rfl
  have hhead : recordHeader recs = ["From", "To"] := by
    apply recordHeader_uniform
    · intro r hr
      obtain ⟨k, _, rfl⟩ := List.mem_map.1 hr
      rfl
    · rw [hrecs]; simpa using hl
  have hframe : recordsFrame recs = ⟨recs.length, [("From", table.map (fun e => JVal.str e.1)), ("To", table.map (fun e => JVal.str e.2))]⟩ := by
    unfold recordsFrame
    rw [hhead]
    simp only [List.map_cons, List.map_nil, hrecs, List.map_map]
    rfl
  rw [hframe]
  have e1 : ∀ (g : Edge → Label) (l : List Edge), (l.map (fun e => JVal.str (g e))).mapM JVal.node = .ok (l.map g) := by
    intro g l
    induction l with
    | nil => rfl
    | cons a l ih => rw [List.map_cons, List.mapM_cons, ih]; rfl
  unfold JFrame.toEdges
  simp only [e1, Except.bind_ok']
  have : ∀ l : List Edge, (l.map Prod.fst).zip (l.map Prod.snd) = l := by
    intro l
    induction l with
    | nil => rfl
    | cons a l ih => simp [ih]
  exact congrArg Except.ok (this table)

theorem mapM_pairs {α β : Type} (f : α → Py β) (g : β → α) (h : ∀ b, f (g b) = .ok b) (l : List (String × β)) :
    (l.map (fun p => (p.1, g p.2))).mapM (fun p : String × α => do
      let b ← f p.2
      return (p.1, b)) = .ok l := by
  induction l with
  | nil => rfl
  | cons a l ih => rw [List.map_cons, List.mapM_cons, ih]; simp only [h]; rfl

theorem cimRows_reads_back (m : JsonCim) : (cimJson m).cimRows = .ok m := by
  have h2 : ∀ m : JsonCim, (m.map (fun r => r.map (fun p => (p.1, JVal.num p.2)))).mapM numRow = .ok m := by
    intro m
    induction m with
    | nil => rfl
    | cons a r ih =>
      rw [List.map_cons, List.mapM_cons, ih]
      have : numRow (a.map (fun p => (p.1, JVal.num p.2))) = .ok a := mapM_pairs JVal.number JVal.num (fun _ => rfl) a
      rw [this]; rfl
  unfold cimJson JVal.cimRows
  simp only [JVal.items, Except.bind_ok']
  have := mapM_record_obj (m.map (fun r => r.map (fun p => (p.1, JVal.num p.2))))
  rw [List.map_map] at this
  have e : (fun r : List (String × ℚ) => JVal.obj (r.map (fun p => (p.1, JVal.num p.2)))) =
    JVal.obj ∘ (fun r => r.map (fun p => (p.1, JVal.num p.2))) := rfl
  rw [e, this]
  exact h2 m

theorem combDict_reads_back (d : List (String × JsonCim)) : (JVal.obj (d.map (fun q => (q.1, cimJson q.2)))).combDict = .ok d := by
  unfold JVal.combDict
  simp only [JVal.record, Except.bind_ok']
  exact mapM_pairs JVal.cimRows cimJson cimRows_reads_back d

theorem cimDict_reads_back (d : List (Label × List (String × JsonCim))) : (cimsJson d).cimDict = .ok d := by
  unfold cimsJson JVal.cimDict
  simp only [JVal.record, Except.bind_ok']
  exact mapM_pairs JVal.combDict (fun d => JVal.obj (d.map (fun q => (q.1, cimJson q.2)))) combDict_reads_back d

end PyCTBN
