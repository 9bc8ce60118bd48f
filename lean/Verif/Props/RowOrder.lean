import Verif.Props.ScoreEst
import Verif.Props.EndToEnd

/-!
# C116, C117: structure learning sees the data only as a bag of (duration, state, next state) triples
-/

namespace PyCTBN
open Spec SearchEnv

/-! ## Everything computed from the rows is blind to their order -/

/-- The value of a returning computation. -/
def okD {α : Type} [Inhabited α] (x : Py α) : α := match x with | .ok a => a | .error _ => default

open Classical in
theorem mapM_uniform {α β : Type} [Inhabited β] {f : α → Py β} {e0 : PyErr} (hf : ∀ x e, f x = .error e → e = e0) (xs : List α) :
    xs.mapM f = if ∀ x ∈ xs, f x = .ok (okD (f x)) then .ok (xs.map (fun x => okD (f x))) else .error e0 := by
  induction xs with
  | nil => simp
  | cons x xs ih =>
    rw [List.mapM_cons, ih]
    cases hx : f x with
    | error e =>
      have hneg : ¬ ∀ y ∈ x :: xs, f y = .ok (okD (f y)) := by
        intro h
        have := h x (List.mem_cons_self ..)
        rw [hx] at this; cases this
      rw [if_neg hneg, hf x e hx]; rfl
    | ok a =>
      by_cases hall : ∀ y ∈ xs, f y = .ok (okD (f y))
      · rw [if_pos hall, if_pos]
        · rw [List.map_cons, hx]; rfl
        · intro y hy
          rcases List.mem_cons.1 hy with rfl | hy
          · rw [hx]; rfl
          · exact hall y hy
      · rw [if_neg hall, if_neg]
        · rfl
        · exact fun h => hall (fun y hy => h y (List.mem_cons_of_mem _ hy))

theorem selectCols_err {α : Type} [Inhabited α] {row : List α} {cols : List Nat} {e : PyErr} (h : selectCols row cols = .error e) : e = .indexError := by
  classical
  unfold selectCols at h
  rw [mapM_uniform (e0 := .indexError)] at h
  · split at h
    · cases h
    · cases h; rfl
  · intro x e hx
    unfold pyGet at hx
    split at hx
    · cases hx
    · cases hx; rfl

theorem rowIndex_err {cols struct : List Nat} (row : List ℤ) (e : PyErr) (h : rowIndex cols struct row = .error e) : e = .indexError := by
  unfold rowIndex at h
  cases h1 : selectCols row cols with
  | error e1 => rw [h1] at h; cases h; exact selectCols_err h1
  | ok v =>
    rw [h1] at h
    cases h2 : pyGet struct 0 with
    | error e2 =>
      rw [h2] at h
      unfold pyGet at h2
      split at h2
      · cases h2
      · cases h2; cases h; rfl
    | ok w => rw [h2] at h; cases h

theorem bincountSize_perm {xs ys : List ℤ} (h : xs.Perm ys) (m : Nat) : bincountSize xs m = bincountSize ys m := by
  unfold bincountSize
  exact h.foldl_eq' (fun x _ y _ z => by omega) m

theorem npBincount_perm {xs ys : List ℤ} (h : xs.Perm ys) (m : Nat) : npBincount xs m = npBincount ys m := by
  unfold npBincount
  have h1 : xs.any (fun x => decide (x < 0)) = ys.any (fun x => decide (x < 0)) := by
    rw [Bool.eq_iff_iff, List.any_eq_true, List.any_eq_true]
    exact ⟨fun ⟨x, hx, h2⟩ => ⟨x, h.mem_iff.1 hx, h2⟩, fun ⟨x, hx, h2⟩ => ⟨x, h.mem_iff.2 hx, h2⟩⟩
  rw [h1, bincountSize_perm h]
  congr 2
  apply List.map_congr_left
  intro k _
  exact (h.filter _).length_eq

theorem npBincountW_perm {α : Type} {L L' : List α} (h : L.Perm L') (a : α → ℤ) (b : α → ℚ) (m : Nat) :
    npBincountW (L.map a) (L.map b) m = npBincountW (L'.map a) (L'.map b) m := by
  unfold npBincountW
  have hp := h.map a
  have h1 : (L.map a).any (fun x => decide (x < 0)) = (L'.map a).any (fun x => decide (x < 0)) := by
    rw [Bool.eq_iff_iff, List.any_eq_true, List.any_eq_true]
    exact ⟨fun ⟨x, hx, h2⟩ => ⟨x, hp.mem_iff.1 hx, h2⟩, fun ⟨x, hx, h2⟩ => ⟨x, hp.mem_iff.2 hx, h2⟩⟩
  rw [h1, bincountSize_perm hp]
  simp only [List.length_map, ne_eq, not_true, if_false, List.zip_map']
  congr 2
  apply List.map_congr_left
  intro k _
  exact (((h.map _).filter _).map _).sum_eq

/-- The two data arrays hold the same rows with the same durations, in some order. -/
structure SameBag (t t' : Trajectory) : Prop where
  cols : t.origCols = t'.origCols
  len : t.times.length = t.rows.length
  len' : t'.times.length = t'.rows.length
  perm : (t.times.zip t.rows).Perm (t'.times.zip t'.rows)

namespace SameBag
variable {t t' : Trajectory}

theorem rows (h : SameBag t t') : t.rows.Perm t'.rows := by
  have := h.perm.map Prod.snd
  rwa [List.map_snd_zip (by have := h.len; omega), List.map_snd_zip (by have := h.len'; omega)] at this

theorem forall_iff {α : Type} {xs ys : List α} (h : xs.Perm ys) (P : α → Prop) : (∀ x ∈ xs, P x) ↔ ∀ x ∈ ys, P x :=
  ⟨fun a x hx => a x (h.mem_iff.2 hx), fun a x hx => a x (h.mem_iff.1 hx)⟩

theorem resTime (h : SameBag t t') (cols struct : List Nat) (k c : Nat) :
    computeStateResTime t.times t.trajectory cols struct k c = computeStateResTime t'.times t'.trajectory cols struct k c := by
  classical
  unfold computeStateResTime
  have key : ∀ u : Trajectory, u.times.length = u.rows.length → u.times = (u.times.zip u.rows).map Prod.fst ∧
      u.trajectory = (u.times.zip u.rows).map (fun p => p.2.take (u.origCols - 1)) := by
    intro u hu
    refine ⟨(List.map_fst_zip (by omega)).symm, ?_⟩
    unfold Trajectory.trajectory
    conv_lhs => rw [← List.map_snd_zip (l₁ := u.times) (l₂ := u.rows) (by omega)]
    rw [List.map_map]; rfl
  obtain ⟨a1, a2⟩ := key t h.len
  obtain ⟨b1, b2⟩ := key t' h.len'
  rw [mapM_uniform (rowIndex_err), mapM_uniform (rowIndex_err)]
  have hp : t.trajectory.Perm t'.trajectory := by
    unfold Trajectory.trajectory
    rw [h.cols]; exact h.rows.map _
  simp only [forall_iff hp]
  split
  · dsimp only [Except.bind_ok']
    have : ∀ m, npBincountW (t.trajectory.map (fun x => okD (rowIndex cols struct x))) t.times m
        = npBincountW (t'.trajectory.map (fun x => okD (rowIndex cols struct x))) t'.times m := by
      intro m
      have e1 : t.trajectory.map (fun x => okD (rowIndex cols struct x))
          = (t.times.zip t.rows).map (fun p => okD (rowIndex cols struct (p.2.take (t'.origCols - 1)))) := by
        conv_lhs => rw [a2]
        rw [List.map_map, h.cols]; rfl
      have e2 : t'.trajectory.map (fun x => okD (rowIndex cols struct x))
          = (t'.times.zip t'.rows).map (fun p => okD (rowIndex cols struct (p.2.take (t'.origCols - 1)))) := by
        conv_lhs => rw [b2]
        rw [List.map_map]; rfl
      rw [e1, e2]
      have := npBincountW_perm h.perm (fun p => okD (rowIndex cols struct (p.2.take (t'.origCols - 1)))) Prod.fst m
      rwa [← a1, ← b1] at this
    simp only [Except.bind_ok', this]
  · rfl

theorem trans (h : SameBag t t') (i : Nat) (cols struct : List Nat) (k c : Nat) :
    computeStateTransitions i t.completeTrajectory cols struct k c = computeStateTransitions i t'.completeTrajectory cols struct k c := by
  classical
  unfold computeStateTransitions Trajectory.completeTrajectory
  have hn : ∀ (row : List ℤ) e, pyGet row (row.length / 2 + i) = .error e → e = .indexError := by
    intro row e hx
    unfold pyGet at hx
    split at hx
    · cases hx
    · cases hx; rfl
  rw [mapM_uniform hn, mapM_uniform hn]
  simp only [forall_iff h.rows]
  split
  · simp only [Except.bind_ok']
    have key : ∀ rows : List (List ℤ), ((rows.zip (rows.map (fun row => okD (pyGet row (row.length / 2 + i))))).filter
        (fun p => decide (0 ≤ p.2))).map Prod.fst = rows.filter (fun row => decide (0 ≤ okD (pyGet row (row.length / 2 + i)))) := by
      intro rows
      induction rows with
      | nil => rfl
      | cons r rs ih =>
        simp only [List.map_cons, List.zip_cons_cons, List.filter_cons]
        split <;> simp [ih]
    rw [key, key]
    have hk := h.rows.filter (fun row => decide (0 ≤ okD (pyGet row (row.length / 2 + i))))
    rw [mapM_uniform rowIndex_err, mapM_uniform rowIndex_err]
    simp only [forall_iff hk]
    split
    · simp only [Except.bind_ok', npBincount_perm (hk.map _)]
    · rfl
  · rfl

theorem computeOn (h : SameBag t t') (g : NetworkGraph) (n : Label) : PyCTBN.computeOn t g n = PyCTBN.computeOn t' g n := by
  unfold PyCTBN.computeOn ParamsEst.fastInit ParamsEst.new
  dsimp only
  cases hd : g.derived with
  | none => rfl
  | some d =>
    dsimp only
    cases hc : g.getStatesNumber n with
    | error e => rfl
    | ok c =>
      simp only [Except.bind_ok', Except.pure_eq_ok']
      unfold ParamsEst.computeParameters
      dsimp only
      rw [hd]
      cases hi : g.getNodeIndx n with
      | error e => rfl
      | ok i =>
        simp only [Except.bind_ok']
        rw [h.resTime, h.trans]
        split
        · cases computeStateResTime t'.times t'.trajectory d.timeFilter d.timeIdx
            (SetOfCims.new n d.info.vals c d.pCombs).combsNumber (SetOfCims.new n d.info.vals c d.pCombs).nodeStates with
          | error e => rfl
          | ok T =>
            simp only [Except.bind_ok']
            cases computeStateTransitions i t'.completeTrajectory d.transFilter d.transIdx
              (SetOfCims.new n d.info.vals c d.pCombs).combsNumber (SetOfCims.new n d.info.vals c d.pCombs).nodeStates with
            | error e => rfl
            | ok M => rfl
        · rfl

/-! ## The constraint-based search -/

variable {E : CBEnv}

theorem withParent (h : SameBag E.traj t') : CBEnv.withParent { E with traj := t' } = E.withParent := by
  funext cache p child S
  unfold CBEnv.withParent
  dsimp only
  have : CBEnv.structure2 { E with traj := t' } p child S = E.structure2 p child S := rfl
  rw [this]
  split
  · rfl
  · simp only [h.computeOn]

theorem withoutParent (h : SameBag E.traj t') : CBEnv.withoutParent { E with traj := t' } = E.withoutParent := by
  funext cache g2 p child S
  unfold CBEnv.withoutParent
  dsimp only
  split
  · rfl
  · simp only [h.computeOn]

theorem compareInner (E : CBEnv) (c th : Nat) (cim1 : Cim) (l : List Cim) :
    CBEnv.compareInner { E with traj := t' } c th cim1 l = E.compareInner c th cim1 l := by
  induction l with
  | nil => rfl
  | cons x xs ih => unfold CBEnv.compareInner; rw [ih]

theorem compareLoop (E : CBEnv) (c th : Nat) (s2 : SetOfCims) (m : List Bool) (l : List (Cim × List Nat)) :
    CBEnv.compareLoop { E with traj := t' } c th s2 m l = E.compareLoop c th s2 m l := by
  induction l with
  | nil => rfl
  | cons x xs ih =>
    obtain ⟨a, b⟩ := x
    unfold CBEnv.compareLoop; simp only [ih, compareInner]

theorem verdict (h : SameBag E.traj t') : CBEnv.verdict { E with traj := t' } = E.verdict := by
  funext cache p child S c
  unfold CBEnv.verdict
  rw [withParent h, withoutParent h]
  have : ∀ l s2 th, CBEnv.compareLoop { E with traj := t' } c th s2 (CBEnv.cimsFilter { E with traj := t' } p S) l
      = E.compareLoop c th s2 (E.cimsFilter p S) l := fun l s2 th => compareLoop E c th s2 _ l
  have ht : CBEnv.thumb { E with traj := t' } p S c = E.thumb p S c := rfl
  simp only [this, ht]

theorem calls (h : SameBag E.traj t') : CBEnv.calls { E with traj := t' } = E.calls := by
  funext child c
  unfold CBEnv.calls CBEnv.completeTest
  rw [verdict h]

theorem optimize (h : SameBag E.traj t') : CBEnv.optimize { E with traj := t' } = E.optimize := by
  funext st child
  unfold CBEnv.optimize
  rw [calls h]
  rfl

theorem ctpcSeqLoop (h : SameBag E.traj t') (ns : List Label) (st : CBState) :
    CBEnv.ctpcSeqLoop { E with traj := t' } ns st = E.ctpcSeqLoop ns st := by
  induction ns generalizing st with
  | nil => rfl
  | cons n ns ih =>
    unfold CBEnv.ctpcSeqLoop
    rw [optimize h]
    simp only [ih]

end SameBag

/-- **C116.**  Structure learning is blind to the order of the data rows: on any two data sets that hold the same (duration, state, next state)
rows the same number of times, for every structure, estimator state, argument, completion order and stream of random numbers, both
estimators do exactly the same — the same edges and report, or the same exception, and the same state afterwards. -/
theorem learning_row_order (t t' : Trajectory) (h : SameBag t t') :
    (∀ (tau alpha : ℝ) (removable : List (List Bool)) (e : Estimator) (a : SBArgs) (order : Option (List Label)) (pick drop : Label → Nat → Nat),
      estimateStructure (famScoreOn t tau alpha) removable e a order pick drop
        = estimateStructure (famScoreOn t' tau alpha) removable e a order pick drop) ∧
    (∀ (s : Structure) (tot : Nat) (test : Nat → Cim → Cim → Nat → Py Verdict) (st : CBState) (e : Estimator) (order : Option (List Label)),
      CBEnv.ctpcEstimate ⟨s, tot, t, test⟩ st e order = CBEnv.ctpcEstimate ⟨s, tot, t', test⟩ st e order ∧
      CBEnv.ctpcSequential ⟨s, tot, t, test⟩ st = CBEnv.ctpcSequential ⟨s, tot, t', test⟩ st) := by
  refine ⟨?_, ?_⟩
  · intro tau alpha removable e a order pick drop
    have : famScoreOn t tau alpha = famScoreOn t' tau alpha := by
      funext n g
      unfold famScoreOn
      rw [h.computeOn]
    rw [this]
  · intro s tot test st e order
    set E : CBEnv := ⟨s, tot, t, test⟩ with hE
    have hb : SameBag E.traj t' := h
    have hE' : (⟨s, tot, t', test⟩ : CBEnv) = { E with traj := t' } := rfl
    have hs : CBEnv.ctpcSequential { E with traj := t' } = E.ctpcSequential := by
      funext st
      unfold CBEnv.ctpcSequential
      rw [hb.ctpcSeqLoop]
    have hp : CBEnv.ctpcParallel { E with traj := t' } = E.ctpcParallel := by
      funext st o
      unfold CBEnv.ctpcParallel
      rw [hb.optimize]
    rw [hE']
    refine ⟨?_, by rw [hs]⟩
    unfold CBEnv.ctpcEstimate
    rw [hs, hp]

/-! ## On the raw trajectories -/

namespace Spec

/-- What the raw trajectories say: for each two consecutive samples of one trajectory, the time between them and the two states. -/
def steps (raws : List RawTraj) : List (ℚ × List ℤ × List ℤ) :=
  raws.flatMap (fun raw => (consecutive raw).map (fun p => (p.2.1 - p.1.1, p.1.2, p.2.2)))

end Spec

theorem steps_eq (raws : List RawTraj) :
    (durations raws).zip (stepRows raws) = (steps raws).map (fun q => (q.1, q.2.1 ++ q.2.2)) := by
  rw [zip_steps]
  unfold steps
  simp only [List.map_flatMap, List.map_map]
  rfl

theorem SameBag.of_steps {raws raws' : List RawTraj} (h : (steps raws).Perm (steps raws')) (vars : List Label) :
    SameBag (builtTraj vars raws) (builtTraj vars raws') := by
  have hl : ∀ r : List RawTraj, (durations r).length = (stepRows r).length := by
    intro r; simp [durations, stepRows, List.length_flatMap]
  refine ⟨rfl, hl _, hl _, ?_⟩
  show ((durations raws).zip (stepRows raws)).Perm ((durations raws').zip (stepRows raws'))
  rw [steps_eq, steps_eq]
  exact h.map _

/-- The order of the trajectories does not change the steps. -/
theorem steps_perm {raws raws' : List RawTraj} (h : raws.Perm raws') : (steps raws).Perm (steps raws') := h.flatMap_right _

/-- Neither does cutting a trajectory in two at one of its samples (the sample ends the first piece and starts the second). -/
theorem steps_cut (pre post : List RawTraj) (a b : RawTraj) (x : ℚ × List ℤ) :
    steps (pre ++ (a ++ x :: b) :: post) = steps (pre ++ (a ++ [x]) :: (x :: b) :: post) := by
  have key : consecutive (a ++ x :: b) = consecutive (a ++ [x]) ++ consecutive (x :: b) := by
    unfold consecutive
    induction a with
    | nil => simp
    | cons y ys ih =>
      cases ys with
      | nil => simp
      | cons z zs =>
        simp only [List.cons_append, List.tail_cons, List.zip_cons_cons] at ih ⊢
        rw [ih]
  unfold steps
  simp only [List.flatMap_append, List.flatMap_cons, key, List.map_append, List.append_assoc]

/-- Nor does moving the origin of the clock of each trajectory. -/
theorem steps_shift (raws : List (ℚ × RawTraj)) :
    steps (raws.map (fun r => r.2.map (fun x => (x.1 + r.1, x.2)))) = steps (raws.map Prod.snd) := by
  unfold steps
  rw [List.flatMap_map, List.flatMap_map]
  congr 1
  funext r
  unfold consecutive
  rw [← List.map_tail, List.zip_map, List.map_map]
  apply List.map_congr_left
  rintro ⟨p, q⟩ _
  simp only [Function.comp, Prod.map]
  congr 1
  ring

/-- **C117.**  Two files over the same variables, cardinalities and known edges whose trajectories contain the same steps (in any order, in any
arrangement into trajectories) are imported as sample paths with the same structure, and on these both estimators do exactly the same. -/
theorem learning_sees_only_steps (vars : List Label) (hcl : NoSuffixClash vars) (hv : vars ≠ []) (cards : List Nat) (es : List Edge)
    (f₀ f₀' : Frame) (rest rest' : List Frame) (raws raws' : List RawTraj) (hhdr : f₀.names = "Time" :: vars)
    (hhdr' : f₀'.names = "Time" :: vars)
    (h : List.Forall₂ (fun f raw => Holds "Time" vars f raw ∧ LastLabelUnique f) (f₀ :: rest) raws)
    (h' : List.Forall₂ (fun f raw => Holds "Time" vars f raw ∧ LastLabelUnique f) (f₀' :: rest') raws')
    (hdata : steps raws ≠ []) (hsteps : (steps raws).Perm (steps raws')) :
    ∃ (p p' : SamplePath) (s : Structure) (t t' : Trajectory),
      buildFromRaw (f₀ :: rest) ⟨List.range vars.length, vars, cards⟩ es = .ok p ∧
      buildFromRaw (f₀' :: rest') ⟨List.range vars.length, vars, cards⟩ es = .ok p' ∧
      p.struct = some s ∧ p'.struct = some s ∧ s.labels = vars ∧ s.vals = cards ∧ s.edges = es ∧
      p.totalVariables = some vars.length ∧ p'.totalVariables = some vars.length ∧
      p.trajectories = some t ∧ p'.trajectories = some t' ∧ t.rows.length = (steps raws).length ∧
      (∀ (tau alpha : ℝ) (removable : List (List Bool)) (e : Estimator) (a : SBArgs) (order : Option (List Label))
          (pick drop : Label → Nat → Nat),
        estimateStructure (famScoreOn t tau alpha) removable e a order pick drop
          = estimateStructure (famScoreOn t' tau alpha) removable e a order pick drop) ∧
      (∀ (tot : Nat) (test : Nat → Cim → Cim → Nat → Py Verdict) (st : CBState) (e : Estimator) (order : Option (List Label)),
        CBEnv.ctpcEstimate ⟨s, tot, t, test⟩ st e order = CBEnv.ctpcEstimate ⟨s, tot, t', test⟩ st e order) := by
  have hlen : ∀ r : List RawTraj, (stepRows r).length = (steps r).length := by
    intro r; simp [stepRows, steps, List.length_flatMap]
  have hne : ∀ r : List RawTraj, steps r ≠ [] → stepRows r ≠ [] := by
    intro r hr hc
    have := hlen r
    rw [hc] at this
    exact hr (List.length_eq_zero_iff.1 this.symm)
  have hdata' : steps raws' ≠ [] := by
    intro hc; rw [hc] at hsteps; exact hdata hsteps.eq_nil
  obtain ⟨p, b1, b2, b3, b4, -⟩ := raw_builds vars hcl hv f₀ rest raws hhdr h (hne _ hdata) cards es
  obtain ⟨p', c1, c2, c3, c4, -⟩ := raw_builds vars hcl hv f₀' rest' raws' hhdr' h' (hne _ hdata') cards es
  obtain ⟨l1, l2⟩ := learning_row_order _ _ (SameBag.of_steps hsteps vars)
  exact ⟨p, p', _, _, _, b1, c1, b2, c2, rfl, rfl, rfl, b4, c4, b3, c3, hlen raws, l1,
    fun tot test st e order => (l2 _ tot test st e order).1⟩

/-- A frame over `X, Y` as in C01, and the same data cut in two and delivered in the other order with shifted clocks. -/
def cutFrame1 : Frame := ⟨[0, 1], [("Time", [some 0, some (1/2)]), ("X", [some 0, some 1]), ("Y", [some 0, some 0])]⟩
@[inherit_doc cutFrame1]
def cutFrame2 : Frame := ⟨[0, 1], [("Time", [some 5, some (13/2)]), ("X", [some 1, some 1]), ("Y", [some 0, some 2])]⟩

@[inherit_doc cutFrame1]
def cutRaw1 : RawTraj := [(0, [0, 0]), (1/2, [1, 0])]
@[inherit_doc cutFrame1]
def cutRaw2 : RawTraj := [(5, [1, 0]), (13/2, [1, 2])]

theorem cutLast (names : List (String × List (Option ℚ))) : LastLabelUnique ⟨[0, 1], names⟩ := by
  intro pre l h
  have h1 : ([0, 1] : List ℤ).dropLast = pre := by rw [show [0, 1] = pre ++ [l] from h]; simp
  have h2 : ([0, 1] : List ℤ).getLast? = some l := by rw [show [0, 1] = pre ++ [l] from h]; simp
  simp at h1 h2; subst h1 h2; decide

theorem cutHolds1 : Holds "Time" ["X", "Y"] cutFrame1 cutRaw1 where
  rows := rfl
  width := by decide
  time := by decide +kernel
  states := by
    intro i v h
    match i, h with
    | 0, h => simp at h; subst h; decide +kernel
    | 1, h => simp at h; subst h; decide +kernel
  namesNodup := by decide

theorem cutHolds2 : Holds "Time" ["X", "Y"] cutFrame2 cutRaw2 where
  rows := rfl
  width := by decide
  time := by decide +kernel
  states := by
    intro i v h
    match i, h with
    | 0, h => simp at h; subst h; decide +kernel
    | 1, h => simp at h; subst h; decide +kernel
  namesNodup := by decide

/-- Concrete instance of C116 and C117: the hypotheses are met by one trajectory of two steps and by its two pieces in the other order. -/
example : ∃ p p' : SamplePath, buildFromRaw [exFrame] ⟨[0, 1], ["X", "Y"], [2, 3]⟩ [] = .ok p ∧
    buildFromRaw [cutFrame2, cutFrame1] ⟨[0, 1], ["X", "Y"], [2, 3]⟩ [] = .ok p' ∧ p.trajectories ≠ p'.trajectories ∧
    ∃ t t', p.trajectories = some t ∧ p'.trajectories = some t' ∧ SameBag t t' := by
  have hs : (steps [exRaw]).Perm (steps [cutRaw2, cutRaw1]) := by decide +kernel
  obtain ⟨q, q1, -, q3, -⟩ := raw_builds ["X", "Y"] (by unfold NoSuffixClash; decide) (by decide) exFrame [] [exRaw] (by decide)
    (.cons ⟨exHolds, exLast⟩ .nil) (by decide +kernel) [2, 3] []
  obtain ⟨q', q1', -, q3', -⟩ := raw_builds ["X", "Y"] (by unfold NoSuffixClash; decide) (by decide) cutFrame2 [cutFrame1] [cutRaw2, cutRaw1]
    (by decide) (.cons ⟨cutHolds2, cutLast _⟩ (.cons ⟨cutHolds1, cutLast _⟩ .nil)) (by decide +kernel) [2, 3] []
  refine ⟨q, q', q1, q1', ?_, _, _, q3, q3', SameBag.of_steps hs _⟩
  rw [q3, q3']
  decide +kernel

end PyCTBN
