import Verif.Props.RowOrder
import Verif.Props.SampleFlow
import Verif.Props.Boundary

/-!
# C118: for which cardinalities the statistics are those of the raw trajectories
-/

namespace PyCTBN
open Spec

/-- From the imported data `t` the estimator delivers for `n` the statistics of the raw trajectories: one CIM per assignment of the parents
and beside each assignment, for every state of `n`, the time the raw trajectories spend there. -/
def RawStatistics (vars : List Label) (raws : List RawTraj) (t : Trajectory) (g : NetworkGraph) (n : Label) (c : Nat) (ps : List Nat) : Prop :=
  ∃ sofc, ParamsEst.estimate t g n = .ok sofc ∧ (∀ u, u ∈ sofc.pCombs ↔ InRangeAssign ps u) ∧
    ∀ (r : Nat) (u : List Nat), sofc.pCombs[r]? = some u → ∃ cim : Cim, sofc.cims[r]? = some cim ∧
      ∀ x, x < c → cim.resTimes[x]? = some (rawResidence vars raws n (parentsOf g n) x u)

theorem residence_built {vars : List Label} (hnd : vars.Nodup) {cards : List Nat} {es : List Edge} {raws : List RawTraj}
    (hw : ∀ p ∈ raws.flatMap consecutive, p.1.2.length = vars.length ∧ p.2.2.length = vars.length) {n : Label} (hn : n ∈ vars)
    {ps : List Label} (hps : ∀ p ∈ ps, p ∈ vars) (x : Nat) (u : List Nat) :
    residence (builtStruct vars cards es) (builtTraj vars raws) n ps x u = rawResidence vars raws n ps x u := by
  unfold residence rawResidence
  dsimp only [builtTraj]
  rw [zip_steps, List.filter_map, List.map_map]
  congr 1
  have : ∀ l : List ((ℚ × List ℤ) × (ℚ × List ℤ)), (∀ p ∈ l, p.1.2.length = vars.length) →
      l.filter ((fun r : ℚ × List ℤ => rowMatches (builtStruct vars cards es) n ps x u r.2) ∘ fun p => (p.2.1 - p.1.1, p.1.2 ++ p.2.2))
        = l.filter (fun p => rawMatches vars n ps x u p.1) := by
    intro l hl
    apply List.filter_congr
    intro p hp
    exact rowMatches_step hnd hn hps (hl p hp)
  rw [this _ (fun p hp => (hw p hp).1)]
  rfl

/-- One two-sample trajectory per data row. -/
def rowRaws (total : Nat) (t : Trajectory) : List RawTraj :=
  List.zipWith (fun (d : ℚ) (r : List ℤ) => [(0, r.take total), (d, r.drop total)]) t.times t.rows

theorem rowRaws_consecutive (total : Nat) (times : List ℚ) (rows : List (List ℤ)) :
    (List.zipWith (fun (d : ℚ) (r : List ℤ) => [((0 : ℚ), r.take total), (d, r.drop total)]) times rows).flatMap consecutive
      = (times.zip rows).map (fun q => ((0, q.2.take total), (q.1, q.2.drop total))) := by
  induction times generalizing rows with
  | nil => rfl
  | cons d ds ih =>
    cases rows with
    | nil => rfl
    | cons r rs =>
      simp only [List.zipWith_cons_cons, List.flatMap_cons, ih, List.zip_cons_cons, List.map_cons]
      rfl

theorem rowRaws_built {vars : List Label} {t : Trajectory} (ho : t.origCols = vars.length + 1) (hl : t.times.length = t.rows.length) :
    builtTraj vars (rowRaws vars.length t) = t := by
  have e1 : durations (rowRaws vars.length t) = t.times := by
    have : durations (rowRaws vars.length t) = ((rowRaws vars.length t).flatMap consecutive).map (fun p => p.2.1 - p.1.1) := by
      simp only [durations, List.map_flatMap]
    rw [this]
    unfold rowRaws
    rw [rowRaws_consecutive, List.map_map]
    have : ((fun p : (ℚ × List ℤ) × (ℚ × List ℤ) => p.2.1 - p.1.1) ∘ fun q : ℚ × List ℤ => ((0, q.2.take vars.length), (q.1, q.2.drop vars.length)))
        = Prod.fst := by funext q; simp
    rw [this, List.map_fst_zip (by omega)]
  have e2 : stepRows (rowRaws vars.length t) = t.rows := by
    rw [stepRows_eq]
    unfold rowRaws
    rw [rowRaws_consecutive, List.map_map]
    have : ((fun p : (ℚ × List ℤ) × (ℚ × List ℤ) => p.1.2 ++ p.2.2) ∘ fun q : ℚ × List ℤ => ((0, q.2.take vars.length), (q.1, q.2.drop vars.length)))
        = Prod.snd := by funext q; simp
    rw [this, List.map_snd_zip (by omega)]
  unfold builtTraj
  rw [e1, e2, ← ho]

theorem built_ownColumns (vars : List Label) (cards : List Nat) (es : List Edge) : OwnColumns (builtStruct vars cards es) :=
  ⟨List.nodup_range, fun _ hi => List.mem_range.1 hi⟩

/-- Every valid data set is that of a file, with one raw trajectory per row. -/
theorem file_of_rows {vars : List Label} (hnd : vars.Nodup) (hT : "Time" ∉ vars) {cards : List Nat}
    (hlen : cards.length = vars.length) {es : List Edge} {t : Trajectory} (ht : DataOK (builtStruct vars cards es) t) (hne : t.rows ≠ []) :
    ∃ (f₀ : Frame) (rest : List Frame) (raws : List RawTraj), raws = rowRaws vars.length t ∧ f₀.names = "Time" :: vars ∧
      List.Forall₂ (fun f raw => Holds "Time" vars f raw ∧ LastLabelUnique f) (f₀ :: rest) raws ∧ stepRows raws ≠ [] ∧ RawInRange cards raws ∧
      builtTraj vars raws = t ∧ ∀ p ∈ raws.flatMap consecutive, p.1.2.length = vars.length ∧ p.2.2.length = vars.length := by
  have hb := rowRaws_built (vars := vars) ht.origCols ht.len
  have hwid : ∀ raw ∈ rowRaws vars.length t, ∀ smp ∈ raw, smp.2.length = vars.length := by
    intro raw hraw smp hsmp
    obtain ⟨d, r, hdr, rfl⟩ : ∃ d r, (d, r) ∈ t.times.zip t.rows ∧ [(0, r.take vars.length), (d, r.drop vars.length)] = raw := by
      unfold rowRaws at hraw
      rw [← List.map_uncurry_zip_eq_zipWith] at hraw
      obtain ⟨⟨d, r⟩, h1, h2⟩ := List.mem_map.1 hraw
      exact ⟨d, r, h1, h2⟩
    have hr := ht.width r (List.of_mem_zip hdr).2
    have hr : r.length = 2 * vars.length := hr
    rcases List.mem_cons.1 hsmp with rfl | hsmp
    · simp [hr]; omega
    · rw [List.mem_singleton] at hsmp
      subst hsmp
      simp [hr]; omega
  -- the file
  have hfor : List.Forall₂ (fun f raw => Holds "Time" vars f raw ∧ LastLabelUnique f)
      ((rowRaws vars.length t).map (SampleNet.frame vars)) (rowRaws vars.length t) := by
    rw [List.forall₂_map_left_iff]
    rw [List.forall₂_same]
    intro raw hraw
    have := frame_holds hnd hT (hwid raw hraw)
    exact ⟨this.1, this.2.1⟩
  have hsr : stepRows (rowRaws vars.length t) ≠ [] := by
    have : (builtTraj vars (rowRaws vars.length t)).rows = t.rows := by rw [hb]
    show (builtTraj vars (rowRaws vars.length t)).rows ≠ []
    rw [this]; exact hne
  cases hraws : rowRaws vars.length t with
  | nil => rw [hraws] at hsr; exact absurd rfl hsr
  | cons raw₀ raws' =>
    rw [hraws] at hfor hsr hb
    rw [List.map_cons] at hfor
    have hhdr : (SampleNet.frame vars raw₀).names = "Time" :: vars :=
      (frame_holds hnd hT (hwid raw₀ (by rw [hraws]; simp))).2.2
    have hwC : ∀ p ∈ (raw₀ :: raws').flatMap consecutive, p.1.2.length = vars.length ∧ p.2.2.length = vars.length := by
      intro p hp
      obtain ⟨raw, h1, h2⟩ := List.mem_flatMap.1 hp
      rw [← hraws] at h1
      have := List.of_mem_zip (show (p.1, p.2) ∈ raw.zip raw.tail from h2)
      exact ⟨hwid raw h1 _ this.1, hwid raw h1 _ (List.mem_of_mem_tail this.2)⟩
    have hrange : RawInRange cards (raw₀ :: raws') := by
      intro raw hraw p hp i v hi
      have hpm : p ∈ (raw₀ :: raws').flatMap consecutive := List.mem_flatMap.2 ⟨raw, hraw, hp⟩
      have hrow : p.1.2 ++ p.2.2 ∈ t.rows := by
        have : p.1.2 ++ p.2.2 ∈ stepRows (raw₀ :: raws') := by
          rw [stepRows_eq]; exact List.mem_map.2 ⟨p, hpm, rfl⟩
        have hb' : stepRows (raw₀ :: raws') = t.rows := by rw [← hb]; rfl
        rw [← hb']; exact this
      have hil : i < vars.length := by
        rw [← hlen]; exact (List.getElem?_eq_some_iff.1 hi).1
      have hix : vars.idxOf vars[i] = i := hnd.idxOf_getElem i hil
      have hget : (builtStruct vars cards es).getStatesNumber vars[i] = .ok v := by
        unfold Structure.getStatesNumber builtStruct
        dsimp only
        rw [pyIndex_of_mem (List.getElem_mem hil), hix]
        exact pyGet_ok.2 hi
      have k1 := ht.cur _ hrow vars[i] (List.getElem_mem hil) v hget
      have k2 := ht.nxt _ hrow vars[i] (List.getElem_mem hil) v hget
      unfold builtStruct at k1 k2
      rw [stateOf_step hnd (List.getElem_mem hil) (hwC p hpm).1, hix] at k1
      rw [nextOf_step hnd (List.getElem_mem hil) (hwC p hpm).1, hix] at k2
      exact ⟨k1, k2⟩
    exact ⟨_, _, _, rfl, hhdr, hfor, hsr, hrange, hb, hwC⟩

/-- **C118.**  For clash-free variables, positive cardinalities and a node with `c` states and parents with cardinalities `ps`: for *every* file
of raw trajectories over these variables with states in range the estimator delivers the statistics of the raw trajectories if and only if every parent
has one state or `c`, and the first two parents have equally many. -/
theorem raw_to_statistics_iff (vars : List Label) (hcl : NoSuffixClash vars) (hnd : vars.Nodup) (hT : "Time" ∉ vars) (cards : List Nat)
    (hlen : cards.length = vars.length) (hcpos : ∀ c ∈ cards, 0 < c) (es : List Edge) (g : NetworkGraph) (hg : Reach (builtStruct vars cards es) g)
    (n : Label) (hn : n ∈ vars) (c : Nat) (hcn : (builtStruct vars cards es).getStatesNumber n = .ok c) (ps : List Nat)
    (hps : ps.map Except.ok = (parentsOf g n).map (builtStruct vars cards es).getStatesNumber) :
    (∀ (f₀ : Frame) (rest : List Frame) (raws : List RawTraj), f₀.names = "Time" :: vars →
        List.Forall₂ (fun f raw => Holds "Time" vars f raw ∧ LastLabelUnique f) (f₀ :: rest) raws → stepRows raws ≠ [] → RawInRange cards raws →
        ∃ (p : SamplePath) (t : Trajectory), buildFromRaw (f₀ :: rest) ⟨List.range vars.length, vars, cards⟩ es = .ok p ∧
          p.trajectories = some t ∧ RawStatistics vars raws t g n c ps) ↔
      ExactCards c ps := by
  have hv : vars ≠ [] := List.ne_nil_of_mem hn
  have hpar : ∀ p ∈ parentsOf g n, p ∈ vars := by
    intro p hp
    have := mem_parentsOf hp
    rw [hg.inv.2] at this; exact this
  constructor
  · intro h
    refine exactCards_of_exact _ g hg hcpos (built_ownColumns vars cards es) n hn c hcn ps hps (fun t ht hne => ?_)
    obtain ⟨f₀, rest, raws, -, hhdr, hfor, hsr, hrange, hb, hwC⟩ := file_of_rows hnd hT hlen ht hne
    obtain ⟨p, t', h1, h2, sofc, h3, h4, h5⟩ := h _ _ _ hhdr hfor hsr hrange
    obtain ⟨p', b1, -, b3, -⟩ := raw_builds vars hcl hv _ _ _ hhdr hfor hsr cards es
    rw [h1] at b1; cases b1
    rw [h2] at b3; cases b3
    rw [hb] at h3
    refine ⟨sofc, h3, h4, fun r u hru => ?_⟩
    obtain ⟨cim, c1, c2⟩ := h5 r u hru
    refine ⟨cim, c1, fun x hx => ?_⟩
    rw [c2 x hx, ← residence_built (cards := cards) (es := es) hnd hwC hn hpar, hb]
  · intro hex f₀ rest raws hhdr h hdata hrange
    obtain ⟨p, s, t, b1, b2, b3, -, -, b4⟩ := raw_to_statistics_partial vars hcl hv f₀ rest raws hhdr h hdata cards hlen hrange hcpos es
    obtain ⟨p', c1, c2, -⟩ := raw_builds vars hcl hv f₀ rest raws hhdr h hdata cards es
    rw [b1] at c1; cases c1
    rw [b2] at c2; cases c2
    obtain ⟨sofc, d1, -, d3, d4⟩ := b4 g hg n hn c ps hcn hps hex
    refine ⟨p, t, b1, b3, sofc, d1, d3, fun r u hru => ?_⟩
    obtain ⟨cim, e1, e2, -⟩ := d4 r u hru
    exact ⟨cim, e1, e2⟩

/-- Concrete instance: with a two-state parent of a three-state child some file is misread; with a two-state child none is. -/
example : ∃ (f₀ : Frame) (rest : List Frame) (raws : List RawTraj), f₀.names = ["Time", "X", "Y"] ∧
    List.Forall₂ (fun f raw => Holds "Time" ["X", "Y"] f raw ∧ LastLabelUnique f) (f₀ :: rest) raws ∧ RawInRange [2, 3] raws ∧
    ¬ ∃ (p : SamplePath) (t : Trajectory), buildFromRaw (f₀ :: rest) ⟨[0, 1], ["X", "Y"], [2, 3]⟩ [("X", "Y")] = .ok p ∧
      p.trajectories = some t ∧ RawStatistics ["X", "Y"] raws t (NetworkGraph.new (builtStruct ["X", "Y"] [2, 3] [("X", "Y")])) "Y" 3 [2] := by
  have := (raw_to_statistics_iff ["X", "Y"] (by unfold NoSuffixClash; decide) (by decide) (by decide) [2, 3] rfl (by decide) [("X", "Y")] _
    (.new ⟨⟨by decide, rfl, rfl⟩, by decide⟩) "Y" (by decide) 3 rfl [2] rfl).not.2 (by
      rintro ⟨h, -⟩
      have := h 2 (by simp)
      omega)
  push Not at this
  obtain ⟨f₀, rest, raws, h1, h2, -, h4, h5⟩ := this
  refine ⟨f₀, rest, raws, h1, h2, h4, ?_⟩
  rintro ⟨p, t, h6, h7, h8⟩
  exact h5 p t h6 h7 h8

example : ExactCards 2 [2] := ⟨by simp, by intro p q rest h; cases h⟩

end PyCTBN
