import Verif.Lemmas.JsonText
import Verif.Lemmas.ScoreEst
import Verif.Props.EstGraph
import Verif.Props.Json
import Mathlib.Data.Rat.Encodable

/-!
# The text of JSON files, and interrupted writing (C131-C134)
-/

namespace PyCTBN
open Spec

/-! ## C131 -/

/-- What `json.dump` wrote, `json.load` reads back, if no dictionary has a key twice. -/
theorem text_round_trip (C : NumText) {v : JVal} (hv : Distinct v) : load C (dump C v) = .ok v := by
  unfold load
  have h := scan_dump C v hv [] (by simp) (3 * (dump C v).length + 3) (by omega)
  have h0 := skipWs_dump C v []
  rw [List.append_nil] at h h0
  rw [h0, h]
  simp [skipWs]

theorem allDistinct_iff {l : List JVal} : allDistinct l ↔ ∀ v ∈ l, Distinct v := by
  induction l with
  | nil => simp [allDistinct]
  | cons v l ih => rw [allDistinct, ih]; simp

theorem fieldsDistinct_iff {l : List (String × JVal)} : fieldsDistinct l ↔ ∀ p ∈ l, Distinct p.2 := by
  induction l with
  | nil => simp [fieldsDistinct]
  | cons p l ih => obtain ⟨k, v⟩ := p; rw [fieldsDistinct, ih]; simp

theorem distinct_arr {l : List JVal} : Distinct (.arr l) ↔ ∀ v ∈ l, Distinct v := by rw [Distinct, allDistinct_iff]

theorem distinct_obj {l : List (String × JVal)} : Distinct (.obj l) ↔ (l.map Prod.fst).Nodup ∧ ∀ p ∈ l, Distinct p.2 := by
  rw [Distinct, fieldsDistinct_iff]

theorem dictSet_nodup {β : Type _} {d : List (String × β)} (h : (d.map Prod.fst).Nodup) (k : String) (v : β) :
    ((dictSet d k v).map Prod.fst).Nodup := by
  unfold dictSet
  split_ifs with hk
  · rw [List.map_map]
    have : d.map (Prod.fst ∘ fun p => if p.1 = k then (k, v) else p) = d.map Prod.fst := by
      apply List.map_congr_left
      intro p _
      simp only [Function.comp]
      split_ifs with hp
      · exact hp.symm
      · rfl
    rw [this]; exact h
  · rw [List.map_append, List.nodup_append]
    refine ⟨h, by simp, ?_⟩
    rintro a ha b hb rfl
    simp at hb
    exact hk (hb ▸ ha)

/-- A dictionary filled entry by entry has distinct keys, and all its values are values put there. -/
theorem fold_dict_distinct {α β : Type _} {f : α → Py (String × β)} {Q : β → Prop} : ∀ {l : List α} {d d' : List (String × β)},
    (∀ a ∈ l, ∀ x, f a = .ok x → Q x.2) → (d.map Prod.fst).Nodup → (∀ p ∈ d, Q p.2) →
    l.foldlM (fun d a => do
      let x ← f a
      return dictSet d x.1 x.2) d = (.ok d' : Py (List (String × β))) → (d'.map Prod.fst).Nodup ∧ ∀ p ∈ d', Q p.2
  | [], d, d', _, hd, hQ, h => by
    simp only [List.foldlM_nil, pure, Except.pure, Except.ok.injEq] at h
    subst h; exact ⟨hd, hQ⟩
  | a :: l, d, d', hf, hd, hQ, h => by
    rw [List.foldlM_cons] at h
    cases hx : f a with
    | error e => rw [hx] at h; simp at h
    | ok x =>
      rw [hx] at h
      simp only [Except.bind_ok', Except.pure_eq_ok'] at h
      refine fold_dict_distinct (fun b hb => hf b (by simp [hb])) (dictSet_nodup hd _ _) ?_ h
      intro p hp
      unfold dictSet at hp
      split_ifs at hp with hk
      · obtain ⟨q, hq, rfl⟩ := List.mem_map.1 hp
        split_ifs
        · exact hf a (by simp) x hx
        · exact hQ q hq
      · rcases List.mem_append.1 hp with hp | hp
        · exact hQ p hp
        · rw [List.mem_singleton] at hp; subst hp; exact hf a (by simp) x hx

theorem rowDict_nodup (row : List ℚ) : ((rowDict row).map Prod.fst).Nodup := by
  unfold rowDict
  rw [List.map_map]
  have : row.zipIdx.map (Prod.fst ∘ fun p : ℚ × Nat => (toString p.2, p.1)) = (row.zipIdx.map Prod.snd).map (fun n : Nat => toString n) := by
    rw [List.map_map]; rfl
  rw [this, List.zipIdx_map_snd]
  apply List.Nodup.map
  · intro a b h
    exact toString_inj h
  · exact List.nodup_range'

theorem cimJson_distinct {m : JsonCim} (h : ∀ r ∈ m, (r.map Prod.fst).Nodup) : Distinct (cimJson m) := by
  unfold cimJson
  rw [distinct_arr]
  intro v hv
  obtain ⟨r, hr, rfl⟩ := List.mem_map.1 hv
  rw [distinct_obj, List.map_map]
  refine ⟨h r hr, ?_⟩
  intro p hp
  obtain ⟨q, -, rfl⟩ := List.mem_map.1 hp
  rw [Distinct] <;> simp

/-- The exported dictionaries have distinct keys, whatever the network. -/
theorem cimsToJson_distinct {labels : List Label} {table : List Edge} {cims : List (Label × SetOfCims)} {d : List (Label × List (String × JsonCim))}
    (h : cimsToJson labels table cims = .ok d) : Distinct (cimsJson d) := by
  have key : (d.map Prod.fst).Nodup ∧ ∀ p ∈ d, (p.2.map Prod.fst).Nodup ∧ ∀ q ∈ p.2, ∀ r ∈ q.2, (r.map Prod.fst).Nodup := by
    refine fold_dict_distinct (f := fun l => do
        let s ← dictGet cims l
        let node ← exportNode l (tableParents table l) s
        return (l, node)) (Q := fun b => (b.map Prod.fst).Nodup ∧ ∀ q ∈ b, ∀ r ∈ q.2, (r.map Prod.fst).Nodup) (l := labels) (d := []) ?_ (by simp)
      (by simp) ?_
    · intro l _ x hx
      cases hs : dictGet cims l with
      | error e => rw [hs] at hx; simp at hx
      | ok s =>
        rw [hs] at hx
        cases hn : exportNode l (tableParents table l) s with
        | error e => simp only [Except.bind_ok', hn] at hx; simp at hx
        | ok node =>
          simp only [Except.bind_ok', hn, Except.pure_eq_ok', Except.ok.injEq] at hx
          subst hx
          refine fold_dict_distinct (f := fun comb => do
              let key ← combKey l (tableParents table l) comb
              let cim ← exportCim s (tableParents table l) comb
              return (key, cim.map rowDict)) (Q := fun m => ∀ r ∈ m, (r.map Prod.fst).Nodup) (l := s.pCombs) (d := []) ?_ (by simp) (by simp) ?_
          · intro comb _ x hx r hr
            cases hk : combKey l (tableParents table l) comb with
            | error e => rw [hk] at hx; simp at hx
            | ok k =>
              rw [hk] at hx
              cases hc : exportCim s (tableParents table l) comb with
              | error e => simp only [Except.bind_ok', hc] at hx; simp at hx
              | ok m =>
                simp only [Except.bind_ok', hc, Except.pure_eq_ok', Except.ok.injEq] at hx
                subst hx
                obtain ⟨row, -, rfl⟩ := List.mem_map.1 hr
                exact rowDict_nodup row
          · rw [← hn]
            unfold exportNode
            congr 1
            funext d comb
            cases combKey l (tableParents table l) comb with
            | error e => rfl
            | ok k => cases exportCim s (tableParents table l) comb <;> rfl
    · rw [← h]
      unfold cimsToJson
      congr 1
      funext d l
      cases dictGet cims l with
      | error e => rfl
      | ok s =>
        simp only [Except.bind_ok']
        cases exportNode l (tableParents table l) s <;> rfl
  unfold cimsJson
  rw [distinct_obj, List.map_map]
  refine ⟨key.1, ?_⟩
  intro p hp
  obtain ⟨q, hq, rfl⟩ := List.mem_map.1 hp
  rw [distinct_obj, List.map_map]
  refine ⟨(key.2 q hq).1, ?_⟩
  intro p' hp'
  obtain ⟨q', hq', rfl⟩ := List.mem_map.1 hp'
  exact cimJson_distinct ((key.2 q hq).2 q' hq')

theorem distinct_leaf {v : JVal} (h : ¬ Container v) : Distinct v := by
  cases v <;> first | (rw [Distinct] <;> simp) | exact absurd trivial h

/-- What `out_file` writes has no repeated key, if no trajectory has a repeated column. -/
theorem outFile_distinct {x : JsonExporter} {enc : ℚ → ℚ} {file : JVal} (hf : ∀ f ∈ x.trajectories, f.names.Nodup)
    (h : x.outFile enc = .ok file) : Distinct file ∧ Container file := by
  unfold JsonExporter.outFile at h
  cases hc : cimsToJson x.labels x.table x.cims with
  | error e => rw [hc] at h; simp at h
  | ok d =>
    rw [hc] at h
    simp only [Except.bind_ok', Except.pure_eq_ok', Except.ok.injEq] at h
    subst h
    refine ⟨?_, trivial⟩
    rw [distinct_arr]
    intro v hv
    rw [List.mem_singleton] at hv
    subst hv
    rw [distinct_obj]
    refine ⟨by simp, ?_⟩
    intro p hp
    simp only [List.mem_cons, List.not_mem_nil, or_false] at hp
    rcases hp with rfl | rfl | rfl | rfl
    · show Distinct (edgesJson x.table)
      unfold edgesJson
      rw [distinct_arr]
      intro v hv
      obtain ⟨e, -, rfl⟩ := List.mem_map.1 hv
      rw [distinct_obj]
      refine ⟨by simp, ?_⟩
      intro p hp
      simp only [List.mem_cons, List.not_mem_nil, or_false] at hp
      rcases hp with rfl | rfl <;> exact distinct_leaf (by simp [Container])
    · show Distinct (varsJson x.labels x.cards)
      unfold varsJson
      rw [distinct_arr]
      intro v hv
      rw [← List.map_uncurry_zip_eq_zipWith] at hv
      obtain ⟨e, -, rfl⟩ := List.mem_map.1 hv
      rw [Function.uncurry]
      rw [distinct_obj]
      refine ⟨by simp, ?_⟩
      intro p hp
      simp only [List.mem_cons, List.not_mem_nil, or_false] at hp
      rcases hp with rfl | rfl <;> exact distinct_leaf (by simp [Container])
    · exact cimsToJson_distinct hc
    · show Distinct (.arr (x.trajectories.map (frameJson enc)))
      rw [distinct_arr]
      intro v hv
      obtain ⟨f, hfm, rfl⟩ := List.mem_map.1 hv
      unfold frameJson
      rw [distinct_arr]
      intro v hv
      obtain ⟨k, -, rfl⟩ := List.mem_map.1 hv
      rw [distinct_obj, List.map_map]
      refine ⟨hf f hfm, ?_⟩
      intro p hp
      obtain ⟨q, -, rfl⟩ := List.mem_map.1 hp
      apply distinct_leaf
      show ¬ Container (cellJson enc _)
      unfold cellJson
      split <;> simp [Container]

/-- **C131.**  Whatever the labels, states and numbers: `json.load` of the text that `out_file` writes is the value that was
exported. -/
theorem exported_text_loads (C : NumText) {x : JsonExporter} {enc : ℚ → ℚ} {file : JVal} (hf : ∀ f ∈ x.trajectories, f.names.Nodup)
    (h : x.outFile enc = .ok file) : load C (dump C file) = .ok file :=
  text_round_trip C (outFile_distinct hf h).1

/-! ## C132: interrupted writing -/

/-- No proper beginning of the text of a list or dictionary is a JSON text. -/
theorem no_prefix_loads (C : NumText) {v : JVal} (hv : Distinct v) (hc : Container v) {p : List Char} (hp : p <+: dump C v)
    (hne : p ≠ dump C v) : load C p = .error .valueError := by
  obtain ⟨q, hq⟩ := hp
  unfold load
  cases hs : scanVal C (3 * p.length + 3) (skipWs p) with
  | none => rfl
  | some x =>
    obtain ⟨v', r⟩ := x
    exfalso
    obtain ⟨c, l, e, hws, hn⟩ : ∃ c l, p = c :: l ∧ skipWs p = p ∧ (c = '[' ∨ c = '{') := by
      cases p with
      | nil => simp [skipWs, scanVal] at hs
      | cons c l =>
        have hcc : c = '[' ∨ c = '{' := by
          cases v with
          | arr l' => cases l' <;> (rw [dump] at hq; simp only [List.cons_append, List.cons.injEq] at hq; exact Or.inl hq.1)
          | obj l' =>
            cases l' with
            | nil => rw [dump] at hq; simp only [List.cons_append, List.cons.injEq] at hq; exact Or.inr hq.1
            | cons a l' => obtain ⟨k, w⟩ := a; rw [dump] at hq; simp only [List.cons_append, List.cons.injEq] at hq; exact Or.inr hq.1
          | _ => exact absurd hc (by simp [Container])
        refine ⟨c, l, rfl, skipWs_of_not _ ?_, hcc⟩
        rcases hcc with rfl | rfl <;> decide
    rw [hws] at hs
    have hnum : v'.isNum = false := by
      rw [e, scanVal] at hs
      rcases hn with rfl | rfl
      · rw [if_neg (by decide), if_pos rfl] at hs
        exact ((scan_ext_step C [] _).2.1 _ _ _ hs).2
      · rw [if_neg (by decide), if_neg (by decide), if_pos rfl] at hs
        exact ((scan_ext_step C [] _).2.2.2.1 _ _ _ hs).2
    have h1 := scanVal_ext hs (Or.inr hnum) q
    have h2 := scan_dump C v hv [] (by simp) (3 * (dump C v).length + 3) (by omega)
    rw [List.append_nil] at h2
    have h3 := scanVal_mono (m := 3 * (dump C v).length + 3) (by rw [← hq, List.length_append]; omega) h1
    rw [hq, h2] at h3
    simp only [Option.some.injEq, Prod.mk.injEq] at h3
    have : q = [] := (List.append_eq_nil_iff.1 h3.2.symm).2
    rw [this, List.append_nil] at hq
    exact hne hq

theorem writer_invariant {old : Option (List Char)} {text : List Char} {w : Writer} (h : Writer.Reaches old text w) :
    (w.opened = false ∧ w = ⟨old, false, [], text⟩) ∨ (w.opened = true ∧ ∃ d, w.disk = some d ∧ d ++ w.buffer ++ w.todo = text) := by
  induction h with
  | start => exact Or.inl ⟨rfl, rfl⟩
  | step _ hs ih =>
    cases hs with
    | openFile =>
      rcases ih with ⟨-, h⟩ | ⟨h, -⟩
      · right
        simp only [Writer.mk.injEq, true_and] at h
        exact ⟨rfl, [], rfl, by simpa using h.2⟩
      · cases h
    | write =>
      rcases ih with ⟨h, -⟩ | ⟨-, d, h1, h2⟩
      · cases h
      · refine Or.inr ⟨rfl, d, h1, ?_⟩
        simpa [List.append_assoc] using h2
    | flush =>
      rcases ih with ⟨h, -⟩ | ⟨-, d, h1, h2⟩
      · cases h
      · simp only [Option.some.injEq] at h1
        subst h1
        refine Or.inr ⟨rfl, _, rfl, ?_⟩
        simpa [List.append_assoc] using h2

/-- **C132.**  If the process is killed at any moment while it writes the value `v` (with distinct keys; a list or a dictionary, as all
files the package writes) over a file, then either the file was not yet touched, or it is the complete new file, or reading it
raises: it never reads as anything else.  When the writing ends, the file is the complete new file. -/
theorem interrupted_write_never_misread (C : NumText) {v : JVal} (hv : Distinct v) (hc : Container v) {old : Option (List Char)} {w : Writer}
    (h : Writer.Reaches old (dump C v) w) :
    (w.opened = false ∧ w.disk = old) ∨
    (∃ text, w.disk = some text ∧ ((text = dump C v ∧ load C text = .ok v) ∨ load C text = .error .valueError)) ∧
    (w.Done → w.disk = some (dump C v)) := by
  rcases writer_invariant h with ⟨h1, h2⟩ | ⟨h1, d, h2, h3⟩
  · left; exact ⟨h1, by rw [h2]⟩
  · right
    refine ⟨⟨d, h2, ?_⟩, ?_⟩
    · by_cases hd : d = dump C v
      · left; exact ⟨hd, by rw [hd]; exact text_round_trip C hv⟩
      · right
        exact no_prefix_loads C hv hc ⟨w.buffer ++ w.todo, by rw [← List.append_assoc]; exact h3⟩ hd
    · rintro ⟨-, e1, e2⟩
      rw [h2]
      rw [e1, e2, List.append_nil, List.append_nil] at h3
      rw [h3]

/-- Writing can be completed from every reachable state. -/
theorem writing_completes {old : Option (List Char)} {text : List Char} {w : Writer} (h : Writer.Reaches old text w) :
    ∃ w', Writer.Reaches old text w' ∧ w'.Done ∧ w'.disk = some text := by
  have fin : ∀ {w : Writer}, Writer.Reaches old text w → w.opened = true → ∃ w', Writer.Reaches old text w' ∧ w'.Done ∧ w'.disk = some text := by
    intro w hw ho
    rcases writer_invariant hw with ⟨h1, -⟩ | ⟨-, d, h2, h3⟩
    · rw [ho] at h1; cases h1
    · obtain ⟨disk, opened, buffer, todo⟩ := w
      simp only at ho h2 h3
      subst ho h2
      have k1 : Writer.Reaches old text ⟨some d, true, buffer ++ todo, []⟩ := .step (w := ⟨some d, true, buffer, todo ++ []⟩) (by simpa using hw) .write
      have k2 : Writer.Reaches old text ⟨some (d ++ (buffer ++ todo)), true, [], []⟩ :=
        .step (w := ⟨some d, true, (buffer ++ todo) ++ [], []⟩) (by simpa using k1) .flush
      exact ⟨_, k2, ⟨rfl, rfl, rfl⟩, by rw [← h3, List.append_assoc]⟩
  rcases writer_invariant h with ⟨h1, h2⟩ | ⟨h1, -⟩
  · subst h2; exact fin (.step h .openFile) rfl
  · exact fin h h1

/-! ## C133: the previous file (refuted) -/

/-- **C133** (refuted).  Whatever the previous contents and whatever is written: there is a moment at which a crash leaves an empty file, which
cannot be read; the previous contents are lost. -/
theorem crash_loses_previous_file (C : NumText) (old : Option (List Char)) (v : JVal) :
    ∃ w, Writer.Reaches old (dump C v) w ∧ w.disk = some [] ∧ load C [] = .error .valueError :=
  ⟨⟨some [], true, [], dump C v⟩, .step .start .openFile, rfl, by simp [load, skipWs, scanVal]⟩

/-! ## C134: saved results -/

theorem resultsJson_distinct (nodes : List Label) (links : List Edge) : Distinct (resultsJson nodes links) := by
  unfold resultsJson
  rw [distinct_obj]
  refine ⟨by simp, ?_⟩
  intro p hp
  simp only [List.mem_cons, List.not_mem_nil, or_false] at hp
  rcases hp with rfl | rfl | rfl | rfl | rfl
  · exact distinct_leaf (by simp [Container])
  · exact distinct_leaf (by simp [Container])
  · rw [distinct_obj]; simp
  · show Distinct (.arr _)
    rw [distinct_arr]
    intro v hv
    obtain ⟨n, -, rfl⟩ := List.mem_map.1 hv
    rw [distinct_obj]
    refine ⟨by simp, ?_⟩
    intro p hp
    rw [List.mem_singleton] at hp; subst hp
    exact distinct_leaf (by simp [Container])
  · show Distinct (.arr _)
    rw [distinct_arr]
    intro v hv
    obtain ⟨n, -, rfl⟩ := List.mem_map.1 hv
    rw [distinct_obj]
    refine ⟨by simp, ?_⟩
    intro p hp
    simp only [List.mem_cons, List.not_mem_nil, or_false] at hp
    rcases hp with rfl | rfl <;> exact distinct_leaf (by simp [Container])

theorem readResults_json (nodes : List Label) (links : List Edge) : readResults (resultsJson nodes links) = .ok (nodes, links) := by
  have h1 : (resultsJson nodes links).key "nodes" = .ok (.arr (nodes.map (fun n => .obj [("id", .str n)]))) := by
    simp [resultsJson, JVal.key]
  have h2 : (resultsJson nodes links).key "links" = .ok (.arr (links.map (fun e => .obj [("source", .str e.1), ("target", .str e.2)]))) := by
    simp [resultsJson, JVal.key]
  unfold readResults
  rw [h1, h2]
  simp only [Except.bind_ok', JVal.items, List.mapM_map]
  have k1 := mapM_ok_map (f := (fun n : JVal => do (← n.key "id").node) ∘ fun n : Label => JVal.obj [("id", .str n)]) (g := id) (l := nodes)
    (by intro n _; simp [JVal.key, JVal.node, Except.bind_ok'])
  have k2 := mapM_ok_map (f := (fun l : JVal => do
      let a ← (← l.key "source").node
      let b ← (← l.key "target").node
      return (a, b)) ∘ fun e : Edge => JVal.obj [("source", .str e.1), ("target", .str e.2)]) (g := id) (l := links)
    (by intro n _; simp [JVal.key, JVal.node, Except.bind_ok', pure, Except.pure])
  rw [List.map_id] at k1 k2
  rw [k1]
  simp only [Except.bind_ok']
  rw [k2]
  rfl

/-- **C134.**  After an estimation that returned the edges `es`, the file written by `save_results`, read with `json.load`, lists
exactly these edges, each once, whatever the labels. -/
theorem saved_results_reload (C : NumText) {e e' : Estimator} {es : Finset Edge} (h : After e es e') :
    ∃ v nodes links, load C (dump C (resultsJson e'.savedResults.1 e'.savedResults.2)) = .ok v ∧ readResults v = .ok (nodes, links) ∧
      links.Nodup ∧ ∀ x, x ∈ links ↔ x ∈ es :=
  ⟨_, _, _, text_round_trip C (resultsJson_distinct _ _), readResults_json _ _, (saved_results_partial h).1, (saved_results_partial h).2.1⟩

/-- Both files the package writes meet the hypotheses of C132. -/
theorem written_files_protected (C : NumText) {x : JsonExporter} {enc : ℚ → ℚ} {file : JVal} (hf : ∀ f ∈ x.trajectories, f.names.Nodup)
    (h : x.outFile enc = .ok file) {old : Option (List Char)} {w : Writer} (hw : Writer.Reaches old (dump C file) w) {text : List Char}
    (ht : w.disk = some text) (hnew : some text ≠ old) (k : JsonKeys) (indx : ℤ) :
    (do let v ← load C text; jsonImportFile k v indx) = jsonImportFile k file indx ∨
    (do let v ← load C text; jsonImportFile k v indx) = .error .valueError := by
  obtain ⟨h1, h2⟩ := outFile_distinct hf h
  rcases interrupted_write_never_misread C h1 h2 hw with ⟨-, e⟩ | ⟨⟨t, e, k⟩, -⟩
  · exact absurd (ht.symm.trans e) hnew
  · rw [ht] at e
    cases e
    rcases k with ⟨-, k⟩ | k
    · left; rw [k]; rfl
    · right; rw [k]; rfl

/-! ## Concrete cases -/

open Classical in
/-- A way of writing numbers with digits. -/
noncomputable def digitsText : NumText where
  text q := Nat.toDigits 10 (Encodable.encode q)
  read l := if h : ∃ q : ℚ, Nat.toDigits 10 (Encodable.encode q) = l then some h.choose else none
  chars q c hc := by
    have := Nat.isDigit_of_mem_toDigits (by norm_num) (by norm_num) hc
    simp [isNumChar, this]
  read_text q := by
    have h : ∃ q' : ℚ, Nat.toDigits 10 (Encodable.encode q') = Nat.toDigits 10 (Encodable.encode q) := ⟨q, rfl⟩
    rw [dif_pos h]
    exact congrArg some (Encodable.encode_injective (toDigits_inj h.choose_spec))
  read_nil := by
    rw [dif_neg]
    rintro ⟨q, hq⟩
    exact Nat.toDigits_ne_nil hq

/-- A label with a quote, a backslash, a line break, an accent and a character beyond 16 bits is written with escapes. -/
example : dumpStr "a\"\\\né𝄞" = "\"a\\\"\\\\\\n\\u00e9\\ud834\\udd1e\"".toList := by decide +kernel

/-- What is saved for the network with the edge `X → Y`, as text. -/
example (C : NumText) : dump C (resultsJson ["X", "Y"] [("X", "Y")]) =
    "{\"directed\": true, \"multigraph\": false, \"graph\": {}, \"nodes\": [{\"id\": \"X\"}, {\"id\": \"Y\"}], \"links\": [{\"source\": \"X\", \"target\": \"Y\"}]}".toList := by
  simp [dump, dumpItems, dumpFields, resultsJson, dumpStr, escapeChar]

/-- A crash in the middle of these results leaves a file that cannot be read. -/
example (C : NumText) : load C "{\"directed\": true, \"multigraph\": false, \"graph\": {}".toList = .error .valueError :=
  no_prefix_loads C (resultsJson_distinct ["X", "Y"] [("X", "Y")]) trivial
    ⟨", \"nodes\": [{\"id\": \"X\"}, {\"id\": \"Y\"}], \"links\": [{\"source\": \"X\", \"target\": \"Y\"}]}".toList, by
      simp [dump, dumpItems, dumpFields, resultsJson, dumpStr, escapeChar]⟩ (by
      simp [dump, dumpItems, dumpFields, resultsJson, dumpStr, escapeChar])

/-- An exporter with a trajectory meets the hypotheses of C131. -/
example (C : NumText) : ∃ file, (JsonExporter.addTrajectory (JsonExporter.new ["X"] [2] [] [("X", ⟨"X", [], 2, [[]], false, [⟨[1, 1], [[1, 1], [0, 0]], [[-1, 1], [2, -2]]⟩]⟩)])
    ⟨[0, 1], [("Time", [some 0, some (1/2)]), ("X", [some 0, some 1])]⟩).outFile id = .ok file ∧ load C (dump C file) = .ok file := by
  refine ⟨_, rfl, exported_text_loads C (x := JsonExporter.addTrajectory (JsonExporter.new ["X"] [2] []
    [("X", ⟨"X", [], 2, [[]], false, [⟨[1, 1], [[1, 1], [0, 0]], [[-1, 1], [2, -2]]⟩]⟩)])
    ⟨[0, 1], [("Time", [some 0, some (1/2)]), ("X", [some 0, some 1])]⟩) (enc := id) ?_ rfl⟩
  intro f hf
  simp only [JsonExporter.addTrajectory, JsonExporter.new, List.nil_append, List.mem_singleton] at hf
  subst hf
  decide

end PyCTBN
