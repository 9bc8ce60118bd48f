import Verif.Model.Pool
import Verif.Props.ScoreEst
import Verif.Props.EstGraph
import Verif.Props.Ctpc
import Verif.Props.Importer

/-!
# C161 to C163: the estimator after any number of calls that may fail, the process pool, and the life of a sample path
-/

namespace PyCTBN
open Spec

/-- One call of either `estimate_structure`, with whatever it needs. -/
inductive EstCall
  | score (S : Type) (inst : LinearOrder S) (score : Label → NetworkGraph → Py S) (removable : List (List Bool)) (a : SBArgs) (disable : Bool)
      (cpu : Nat) (processes : Option ℤ) (order : List Label) (pick drop : Label → Nat → Nat)
  | constraint (E : CBEnv) (st : CBState) (disable : Bool) (cpu : Nat) (processes : Option ℤ) (order : List Label)

/-- What a caller sees of a call: the edges returned or the exception. -/
def EstCall.run (e : Estimator) : EstCall → Py (Finset Edge) × Estimator
  | .score _ inst sc R a d cpu p o pick drop =>
    let r := @estimateStructureCall _ inst sc R e a d cpu p o pick drop
    (r.1.map Prod.fst, r.2)
  | .constraint E st d cpu p o => E.estimateStructureCall st e d cpu p o

theorem estimateStructure_after {S : Type} [LinearOrder S] (score : Label → NetworkGraph → Py S) (R : List (List Bool)) (e : Estimator)
    (a : SBArgs) (order : Option (List Label)) (pick drop : Label → Nat → Nat) :
    let r := estimateStructure score R e a order pick drop
    (∃ x, r.1 = .error x ∧ r.2 = ⟨e.struct.cleanEdges, e.complete⟩) ∨ ∃ es rep, r.1 = .ok (es, rep) ∧ After e es r.2 := by
  intro r
  rcases hr : r with ⟨x | ⟨es, rep⟩, e'⟩
  · left
    refine ⟨x, rfl, ?_⟩
    have hr' : estimateStructure score R e a order pick drop = (.error x, e') := hr
    unfold estimateStructure at hr'
    simp only at hr'
    split at hr'
    · simp only [Prod.mk.injEq] at hr'
      exact hr'.2.symm
    · simp at hr'
  · right
    exact ⟨es, rep, rfl, after_score_based hr⟩

theorem ctpcEstimate_after (E : CBEnv) (st : CBState) (e : Estimator) (order : Option (List Label)) :
    let r := E.ctpcEstimate st e order
    (∃ x, r.1 = .error x ∧ r.2 = ⟨e.struct.cleanEdges, e.complete⟩) ∨ ∃ es, r.1 = .ok es ∧ After e es r.2 := by
  intro r
  rcases hr : r with ⟨x | es, e'⟩
  · left
    refine ⟨x, rfl, ?_⟩
    have hr' : E.ctpcEstimate st e order = (.error x, e') := hr
    unfold CBEnv.ctpcEstimate at hr'
    split at hr'
    · simp only [Prod.mk.injEq] at hr'
      exact hr'.2.symm
    · simp at hr'
  · right
    exact ⟨es, rfl, after_ctpc hr⟩

/-- C161 (one call).  A call that raises forgets the true edges but leaves the variables and the reported graph alone; a call that returns also replaces the
reported graph by the returned edges. -/
theorem estimate_call_effect (e : Estimator) (c : EstCall) :
    let r := c.run e
    r.2.struct = { e.struct with edges := [] } ∧
    ((∃ x, r.1 = .error x ∧ r.2.complete = e.complete) ∨ (∃ es, r.1 = .ok es ∧ ∀ x, x ∈ r.2.complete.edges ↔ x ∈ es)) := by
  intro r
  have key : (∃ x, r.1 = .error x ∧ r.2 = ⟨e.struct.cleanEdges, e.complete⟩) ∨ ∃ es, r.1 = .ok es ∧ After e es r.2 := by
    cases c with
    | score S inst sc R a d cpu p o pick drop =>
      have hr : r = ((@estimateStructureCall _ inst sc R e a d cpu p o pick drop).1.map Prod.fst, (@estimateStructureCall _ inst sc R e a d cpu p o pick drop).2) := rfl
      rw [hr]
      have hgo : ∀ o', (∃ x, ((@estimateStructure _ inst sc R e a o' pick drop).1.map Prod.fst) = .error x ∧
          (@estimateStructure _ inst sc R e a o' pick drop).2 = ⟨e.struct.cleanEdges, e.complete⟩) ∨
          ∃ es, ((@estimateStructure _ inst sc R e a o' pick drop).1.map Prod.fst) = .ok es ∧ After e es (@estimateStructure _ inst sc R e a o' pick drop).2 := by
        intro o'
        rcases @estimateStructure_after _ inst sc R e a o' pick drop with ⟨x, h1, h2⟩ | ⟨es, rep, h1, h2⟩
        · exact .inl ⟨x, by rw [h1]; rfl, h2⟩
        · exact .inr ⟨es, by rw [h1]; rfl, h2⟩
      unfold estimateStructureCall
      cases d with
      | true => exact hgo none
      | false =>
        simp only [Bool.false_eq_true, if_false]
        cases startPool (poolSize cpu p) with
        | error x => exact .inl ⟨x, rfl, rfl⟩
        | ok _ => exact hgo (some o)
    | constraint E st d cpu p o =>
      have hr : r = E.estimateStructureCall st e d cpu p o := rfl
      rw [hr]
      unfold CBEnv.estimateStructureCall
      cases d with
      | true => exact ctpcEstimate_after E st e none
      | false =>
        simp only [Bool.false_eq_true, if_false]
        cases startPool (poolSize cpu p) with
        | error x => exact .inl ⟨x, rfl, rfl⟩
        | ok _ => exact ctpcEstimate_after E st e (some o)
  rcases key with ⟨x, h1, h2⟩ | ⟨es, h1, h2⟩
  · rw [h2]; exact ⟨rfl, .inl ⟨x, h1, rfl⟩⟩
  · refine ⟨?_, .inr ⟨es, h1, fun x => h2.mem_edges x⟩⟩
    obtain ⟨l, -, h⟩ := h2
    rw [h]; rfl

/-- The estimator after a history of calls. -/
def afterCalls (e : Estimator) (cs : List EstCall) : Estimator := cs.foldl (fun e c => (c.run e).2) e

/-- The edges of the last call of the history that returned. -/
def lastReturned (e : Estimator) : List EstCall → Option (Finset Edge)
  | [] => none
  | c :: cs => match lastReturned (c.run e).2 cs with
    | some es => some es
    | none => match (c.run e).1 with
      | .ok es => some es
      | .error _ => none

/-- C161.  After any non-empty history of estimation calls, of which any may have raised, the structure has the same variables with the same indexes and
cardinalities and no edges, nothing is reported as spurious, and the reported graph is that of the last call that returned (the initial one if none did). -/
theorem estimate_history (e : Estimator) (cs : List EstCall) (hne : cs ≠ []) :
    let e' := afterCalls e cs
    e'.struct = { e.struct with edges := [] } ∧ e'.hasPrior = false ∧ e'.spuriousEdges = .ok [] ∧
    match lastReturned e cs with
    | none => e'.complete = e.complete
    | some es => ∀ x, x ∈ e'.complete.edges ↔ x ∈ es := by
  intro e'
  have key : ∀ (cs : List EstCall) (e : Estimator), cs ≠ [] → (afterCalls e cs).struct = { e.struct with edges := [] } ∧
      (match lastReturned e cs with
        | none => (afterCalls e cs).complete = e.complete
        | some es => ∀ x, x ∈ (afterCalls e cs).complete.edges ↔ x ∈ es) := by
    intro cs
    induction cs with
    | nil => intro e h; exact absurd rfl h
    | cons c cs ih =>
      intro e _
      obtain ⟨h1, h2⟩ := estimate_call_effect e c
      by_cases hcs : cs = []
      · subst hcs
        refine ⟨h1, ?_⟩
        show match (match (c.run e).1 with
          | .ok es => some es
          | .error _ => none) with
          | none => (c.run e).2.complete = e.complete
          | some es => ∀ x, x ∈ (c.run e).2.complete.edges ↔ x ∈ es
        rcases h2 with ⟨x, h2, h3⟩ | ⟨es, h2, h3⟩
        · rw [h2]; exact h3
        · rw [h2]; exact h3
      · obtain ⟨h3, h4⟩ := ih (c.run e).2 hcs
        have ha : afterCalls e (c :: cs) = afterCalls (c.run e).2 cs := rfl
        rw [ha]
        refine ⟨by rw [h3, h1], ?_⟩
        unfold lastReturned
        cases hl : lastReturned (c.run e).2 cs with
        | some es => rw [hl] at h4; exact h4
        | none =>
          rw [hl] at h4
          dsimp only at h4 ⊢
          rcases h2 with ⟨x, h2, h5⟩ | ⟨es, h2, h5⟩
          · rw [h2]; exact h4.trans h5
          · rw [h2]; dsimp only; rw [h4]; exact h5
  obtain ⟨h1, h2⟩ := key cs e hne
  have hp : e'.hasPrior = false := by
    unfold Estimator.hasPrior
    have : e'.struct.edges = [] := by rw [show e'.struct = _ from h1]
    rw [this]; rfl
  refine ⟨h1, hp, ?_, h2⟩
  unfold Estimator.spuriousEdges
  rw [hp]; rfl

/-- C161 (consequence).  From the second call on, also when the first one raised, score-based estimation prints neither precision nor recall. -/
theorem no_report_after_first {S : Type} [LinearOrder S] (score : Label → NetworkGraph → Py S) (R : List (List Bool)) (e : Estimator) (cs : List EstCall)
    (hne : cs ≠ []) (a : SBArgs) (disable : Bool) (cpu : Nat) (processes : Option ℤ) (order : List Label) (pick drop : Label → Nat → Nat)
    {es : Finset Edge} {rep : Option (ℚ × ℚ)}
    (h : (estimateStructureCall score R (afterCalls e cs) a disable cpu processes order pick drop).1 = .ok (es, rep)) : rep = none := by
  have h1 := (estimate_history e cs hne).1
  have hed : (afterCalls e cs).struct.edges = [] := by rw [h1]
  generalize afterCalls e cs = e' at h hed
  have key : ∀ o, (estimateStructure score R e' a o pick drop).1 = .ok (es, rep) → rep = none := by
    intro o ho
    unfold estimateStructure at ho
    simp only at ho
    split at ho
    · simp at ho
    · simp only [Except.ok.injEq, Prod.mk.injEq] at ho
      rw [← ho.2, hed]
      simp [report]
  unfold estimateStructureCall at h
  cases disable with
  | true => exact key none h
  | false =>
    simp only [Bool.false_eq_true, if_false] at h
    cases hp : startPool (poolSize cpu processes) with
    | error x => rw [hp] at h; simp at h
    | ok _ => rw [hp] at h; exact key _ h

/-! ## C162 -/

/-- C162.  With multiprocessing, the pool has at most as many workers as processors, and at most as many as asked for; it fails to start, with `ValueError`, iff
fewer than one was asked for (or there is no processor). -/
theorem pool_size (cpu : Nat) (processes : Option ℤ) :
    poolSize cpu processes ≤ cpu ∧ (∀ p, processes = some p → poolSize cpu processes ≤ p) ∧
    (startPool (poolSize cpu processes) = .ok () ∨ startPool (poolSize cpu processes) = .error .valueError) ∧
    (startPool (poolSize cpu processes) = .error .valueError ↔ cpu = 0 ∨ ∃ p ≤ 0, processes = some p) := by
  have h3 : startPool (poolSize cpu processes) = .ok () ∨ startPool (poolSize cpu processes) = .error .valueError := by
    unfold startPool; split
    · exact .inr rfl
    · exact .inl rfl
  have h4 : startPool (poolSize cpu processes) = .error .valueError ↔ poolSize cpu processes ≤ 0 := by
    unfold startPool; split
    · next h => simp [h]
    · next h => simp [h]
  refine ⟨?_, ?_, h3, h4.trans ?_⟩
  · cases processes with
    | none => exact le_refl _
    | some p => show (if p < (cpu : ℤ) then p else (cpu : ℤ)) ≤ _; split <;> omega
  · rintro p rfl
    show (if p < (cpu : ℤ) then p else (cpu : ℤ)) ≤ _; split <;> omega
  · cases processes with
    | none => simp [poolSize]
    | some p =>
      show (if p < (cpu : ℤ) then p else (cpu : ℤ)) ≤ 0 ↔ _
      simp only [Option.some.injEq, exists_eq_right']
      split <;> omega

theorem startPool_ok {cpu : Nat} (hcpu : 0 < cpu) {processes : Option ℤ} (hp : ∀ p, processes = some p → 0 < p) :
    startPool (poolSize cpu processes) = .ok () := by
  rcases (pool_size cpu processes).2.2.1 with h | h
  · exact h
  · rcases (pool_size cpu processes).2.2.2.1 h with h | ⟨p, h1, h2⟩
    · omega
    · have := hp p h2; omega

/-- C162 (score-based).  Unless the search for some node hangs, the call does exactly what the sequential call does (same result or exception, same state afterwards),
whatever `disable_multiprocessing`, `processes_number` (if positive), the number of processors and the order in which workers finish. -/
theorem score_call_setting_irrelevant {S : Type} [LinearOrder S] (score : Label → NetworkGraph → Py S) (R : List (List Bool)) (e : Estimator) (a : SBArgs)
    (disable : Bool) (cpu : Nat) (hcpu : 0 < cpu) (processes : Option ℤ) (hp : ∀ p, processes = some p → 0 < p) (order : List Label)
    (ho : order.Perm e.struct.labels) (pick drop : Label → Nat → Nat)
    (hang : ∀ n ∈ e.struct.labels, nodeResult score R e a pick drop n ≠ .error .blocked) :
    estimateStructureCall score R e a disable cpu processes order pick drop = estimateStructure score R e a none pick drop := by
  unfold estimateStructureCall
  rw [startPool_ok hcpu hp]
  cases disable with
  | true => rfl
  | false =>
    refine (score_based_parallel_eq (score := score) (R := R) (e := e) (a := a) (pick := pick) (drop := drop) ho).1 ?_
    rintro ⟨n, hn, h⟩
    exact hang n hn h

/-- C162 (constraint-based).  Likewise, on a fresh estimator. -/
theorem constraint_call_setting_irrelevant {E : CBEnv} (hw : WFStructure E.struct) (hnd : E.struct.indexes.Nodup) (m : List (List Bool)) (e : Estimator)
    (disable : Bool) (cpu : Nat) (hcpu : 0 < cpu) (processes : Option ℤ) (hp : ∀ p, processes = some p → 0 < p) (order : List Label)
    (ho : order.Perm E.struct.labels) :
    E.estimateStructureCall ⟨[], m⟩ e disable cpu processes order = E.ctpcEstimate ⟨[], m⟩ e none := by
  unfold CBEnv.estimateStructureCall
  rw [startPool_ok hcpu hp]
  cases disable with
  | true => rfl
  | false =>
    show E.ctpcEstimate ⟨[], m⟩ e (some order) = _
    unfold CBEnv.ctpcEstimate
    simp only [parallel_equals_sequential hw hnd m order ho]

/-- C162 (failing to start).  Asking for fewer than one worker makes both estimators raise `ValueError` without estimating anything, after the true edges were forgotten. -/
theorem no_workers {S : Type} [LinearOrder S] (score : Label → NetworkGraph → Py S) (R : List (List Bool)) (e : Estimator) (a : SBArgs) (cpu : Nat) (p : ℤ)
    (hp : p ≤ 0) (order : List Label) (pick drop : Label → Nat → Nat) (E : CBEnv) (st : CBState) :
    estimateStructureCall score R e a false cpu (some p) order pick drop = (.error .valueError, ⟨{ e.struct with edges := [] }, e.complete⟩) ∧
    E.estimateStructureCall st e false cpu (some p) order = (.error .valueError, ⟨{ e.struct with edges := [] }, e.complete⟩) := by
  have h := (pool_size cpu (some p)).2.2.2.2 (.inr ⟨p, hp, rfl⟩)
  unfold estimateStructureCall CBEnv.estimateStructureCall
  rw [h]
  exact ⟨rfl, rfl⟩

/-! ## C163 -/

/-- C163.  A sample path is created iff the importer has a table with at least one variable and, if data were imported, at least one row of them; nothing is
built yet.  Otherwise `RuntimeError`. -/
theorem sample_path_accepts_iff (imp : Importer) :
    (SamplePath.new imp = .ok ⟨imp, none, none, none⟩ ∨ SamplePath.new imp = .error .runtimeError) ∧
    (SamplePath.new imp = .ok ⟨imp, none, none, none⟩ ↔
      (∃ v, imp.vars = some v ∧ v.labels ≠ []) ∧ ∀ f, imp.concatenated = some f → f.index ≠ [] ∧ f.cols ≠ []) := by
  unfold SamplePath.new
  cases hv : imp.vars with
  | none => simp
  | some v =>
    dsimp only
    by_cases hl : v.labels = []
    · rw [if_pos hl]; simp [hl]
    · rw [if_neg hl]
      cases hc : imp.concatenated with
      | none => simp [hl]
      | some f =>
        dsimp only
        by_cases h : f.index = [] ∨ f.cols = []
        · rw [if_pos h]
          simp only [reduceCtorEq, or_true, Option.some.injEq, exists_eq_left', ne_eq, hl, not_false_eq_true, forall_eq', true_and, false_iff]
          tauto
        · rw [if_neg h]
          simp only [true_or, Option.some.injEq, exists_eq_left', ne_eq, hl, not_false_eq_true, forall_eq', true_and, true_iff]
          tauto

/-- The two building methods. -/
inductive BuildOp
  | trajectories | structure_

/-- One call; a call that raises changes nothing. -/
def BuildOp.run (p : SamplePath) : BuildOp → SamplePath
  | .trajectories => match p.buildTrajectories with
    | .ok p' => p'
    | .error _ => p
  | .structure_ => match p.buildStructure with
    | .ok p' => p'
    | .error _ => p

/-- C163 (life of a sample path).  For an importer with data that can be read, after any sequence of building calls: the trajectories are those of the data if
`build_trajectories` was called once, empty if more often, absent if never; the structure is there iff `build_structure` was called and the labels are in the
order of the columns, and is that of the table; `has_prior_net_structure` raises before, and then says whether the importer brought edges. -/
theorem sample_path_history (imp : Importer) (f : Frame) (v : VarTable) (vars : List Label) (times : List ℚ) (rows : List (List ℤ))
    (hf : imp.concatenated = some f) (hv : imp.vars = some v) (hs : imp.sorter = some vars) (hb : buildListOfSamplesArray f = .ok (times, rows))
    (ops : List BuildOp) :
    let p := ops.foldl BuildOp.run ⟨imp, none, none, none⟩
    let k := ops.countP (fun o => match o with | .trajectories => true | .structure_ => false)
    p.trajectories = (if k = 0 then none else if k = 1 then some ⟨times, rows, vars.length + 1⟩ else some ⟨[], [], vars.length + 1⟩) ∧
    p.struct = (if k < ops.length ∧ vars = v.labels then some ⟨v.labels, v.index, v.cards, imp.edges.getD [], v.labels.length⟩ else none) ∧
    p.hasPriorNetStructure = (if k < ops.length ∧ vars = v.labels then .ok (decide (0 < (imp.edges.getD []).length)) else .error .attributeError) := by
  intro p k
  have hne : buildListOfSamplesArray f.noRows = .ok ([], []) := by
    unfold buildListOfSamplesArray at hb ⊢
    cases hc : f.cols with
    | nil => rw [hc] at hb; cases hb
    | cons p0 r => unfold Frame.noRows; rw [hc]; rfl
  have hnn : f.noRows.noRows = f.noRows := by
    unfold Frame.noRows; simp
  let S : Structure := ⟨v.labels, v.index, v.cards, imp.edges.getD [], v.labels.length⟩
  let st : Nat → Bool → SamplePath := fun k b =>
    ⟨{ imp with concatenated := some (if k = 0 then f else f.noRows) },
      if k = 0 then none else if k = 1 then some ⟨times, rows, vars.length + 1⟩ else some ⟨[], [], vars.length + 1⟩,
      if b then some S else none, if b then some v.labels.length else none⟩
  have hT : ∀ k b, BuildOp.run (st k b) .trajectories = st (k + 1) b := by
    intro k b
    have : (st k b).buildTrajectories = .ok (st (k + 1) b) := by
      unfold SamplePath.buildTrajectories
      rcases k with _ | k
      · simp only [st, if_true]
        rw [hb]
        simp [hs]
      · simp only [st, Nat.add_eq_zero_iff, and_false, if_false, one_ne_zero]
        rw [hne]
        simp [hs, hnn]
    show (match (st k b).buildTrajectories with | .ok p' => p' | .error _ => st k b) = _
    rw [this]
  have hS : ∀ k b, BuildOp.run (st k b) .structure_ = st k (b || decide (vars = v.labels)) := by
    intro k b
    show (match (st k b).buildStructure with | .ok p' => p' | .error _ => st k b) = _
    unfold SamplePath.buildStructure
    simp only [st, hv, hs]
    by_cases h : vars = v.labels
    · simp [h, S]
    · simp [h]
  have key : ∀ (ops : List BuildOp) (k : Nat) (b : Bool), (b = true → vars = v.labels) → ops.foldl BuildOp.run (st k b) =
      st (k + ops.countP (fun o => match o with | .trajectories => true | .structure_ => false))
        (b || (decide (ops.countP (fun o => match o with | .trajectories => true | .structure_ => false) < ops.length) && decide (vars = v.labels))) := by
    intro ops
    induction ops with
    | nil => intro k b _; simp
    | cons o ops ih =>
      intro k b hbv
      have hle : ops.countP (fun o => match o with | .trajectories => true | .structure_ => false) ≤ ops.length := List.countP_le_length
      cases o with
      | trajectories =>
        rw [List.foldl_cons, hT, ih _ _ hbv, List.countP_cons_of_pos rfl, List.length_cons]
        congr 1
        · omega
        · simp
      | structure_ =>
        rw [List.foldl_cons, hS, ih _ _ (by intro h; simp only [Bool.or_eq_true, decide_eq_true_eq] at h; tauto), List.countP_cons_of_neg (by simp), List.length_cons]
        congr 1
        by_cases h : vars = v.labels
        · simp [h]; right; omega
        · cases b <;> simp [h]
  have h0 : (⟨imp, none, none, none⟩ : SamplePath) = st 0 false := by
    simp only [st, if_true, Bool.false_eq_true, if_false, ← hf]
  have hp : p = st k (decide (k < ops.length) && decide (vars = v.labels)) := by
    show ops.foldl BuildOp.run ⟨imp, none, none, none⟩ = _
    rw [h0, key ops 0 false (by simp)]
    simp only [Nat.zero_add, Bool.false_or]
    rfl
  have hst : p.struct = (if k < ops.length ∧ vars = v.labels then some S else none) := by
    rw [hp]
    simp only [st, Bool.and_eq_true, decide_eq_true_eq]
  refine ⟨by rw [hp], hst, ?_⟩
  unfold SamplePath.hasPriorNetStructure
  rw [hst]
  by_cases h : k < ops.length ∧ vars = v.labels
  · rw [if_pos h, if_pos h]
    show Except.ok (decide (imp.edges.getD [] ≠ [])) = _
    congr 2
    exact propext List.length_pos_iff.symm
  · rw [if_neg h, if_neg h]

/-- C163 (one importer, two sample paths).  Once trajectories were built from an importer, it no longer gives a sample path: the constructor raises. -/
theorem importer_used_up (p p' : SamplePath) (h : p.buildTrajectories = .ok p') : SamplePath.new p'.importer = .error .runtimeError := by
  rcases (sample_path_accepts_iff p'.importer).1 with h1 | h1
  · exfalso
    obtain ⟨-, h2⟩ := (sample_path_accepts_iff p'.importer).2.1 h1
    unfold SamplePath.buildTrajectories at h
    cases hf : p.importer.concatenated with
    | none => rw [hf] at h; cases h
    | some f =>
      rw [hf] at h
      dsimp only at h
      cases hb : buildListOfSamplesArray f with
      | error e => rw [hb] at h; cases h
      | ok tr =>
        rw [hb] at h
        simp only [Except.bind_ok'] at h
        cases hs : p.importer.sorter with
        | none => rw [hs] at h; cases h
        | some s =>
          rw [hs] at h
          simp only [Except.ok.injEq] at h
          subst h
          exact (h2 _ rfl).1 rfl
  · exact h1

/-! ## Instances -/

/-- A history: asking for 0 workers fails and forgets the true edge; a following estimation with no iterations returns nothing and prints no score. -/
example :
    let e := Estimator.new ⟨["X", "Y"], [0, 1], [2, 2], [("X", "Y")], 2⟩
    let sc : Label → NetworkGraph → Py ℚ := fun _ _ => .ok 0
    let a : SBArgs := ⟨none, 0, none, none, none, "hill"⟩
    let c1 : EstCall := .score ℚ inferInstance sc [[true, true], [true, true]] a false 4 (some 0) ["X", "Y"] (fun _ _ => 0) (fun _ _ => 0)
    let c2 : EstCall := .score ℚ inferInstance sc [[true, true], [true, true]] a true 4 none [] (fun _ _ => 0) (fun _ _ => 0)
    (c1.run e).1 = .error .valueError ∧ ("X", "Y") ∈ (afterCalls e [c1]).complete.edges ∧ (afterCalls e [c1]).struct.edges = [] ∧
      (c2.run (afterCalls e [c1])).1 = .ok ∅ ∧ (afterCalls e [c1, c2]).complete.edges = [] := by
  refine ⟨rfl, by decide +kernel, rfl, by decide +kernel, by decide +kernel⟩

/-- A sample path of two rows, built twice. -/
example :
    let f : Frame := ⟨[0, 1], [("Time", [some 1, some 2]), ("X", [some 0, some 1]), ("XS", [some 1, some 0])]⟩
    let imp : Importer := ⟨some f, some ["X"], some ⟨[0], ["X"], [2]⟩, some []⟩
    SamplePath.new imp = .ok ⟨imp, none, none, none⟩ ∧ buildListOfSamplesArray f = .ok ([1, 2], [[0, 1], [1, 0]]) ∧
      (BuildOp.run (BuildOp.run ⟨imp, none, none, none⟩ .structure_) .trajectories).trajectories = some ⟨[1, 2], [[0, 1], [1, 0]], 2⟩ ∧
      (BuildOp.run (BuildOp.run ⟨imp, none, none, none⟩ .structure_) .trajectories).hasPriorNetStructure = .ok false := by
  decide +kernel

end PyCTBN
