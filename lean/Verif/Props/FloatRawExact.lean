import Verif.Props.RawExact
import Verif.Props.FloatImport

/-! # When float64 estimation from raw trajectories is right (C172): the exact boundary -/

namespace PyCTBN
open Spec

/-- The statistics estimated in `float64` from the imported data `t` are those of the raw trajectories: the right assignments of the parents; every
transition count exact; every residence time up to a relative error of `(m + 1)·2⁻⁵³ / (1 - (m + 1)·2⁻⁵³)`, `m` being the number of steps. -/
def RawStatisticsF (vars : List Label) (raws : List RawTraj) (t : Trajectory) (g : NetworkGraph) (n : Label) (c : Nat) (ps : List Nat) : Prop :=
  ∃ sofc, ParamsEst.estimateF (binRound 53) t g n = .ok sofc ∧ (∀ u, u ∈ sofc.pCombs ↔ InRangeAssign ps u) ∧
    ∀ (r : Nat) (u : List Nat), sofc.pCombs[r]? = some u → ∃ cim : Cim, sofc.cims[r]? = some cim ∧
      (∀ x, x < c → ∃ T, cim.resTimes[x]? = some T ∧
        |T - rawResidence vars raws n (parentsOf g n) x u|
          ≤ (((stepRows raws).length + 1 : Nat) * (1 / 2 ^ 53)) / (1 - ((stepRows raws).length + 1 : Nat) * (1 / 2 ^ 53))
            * rawResidence vars raws n (parentsOf g n) x u) ∧
      (∀ x x', x < c → x' < c → x ≠ x' →
        entry2 cim.trans x x' = some (rawTransitions vars raws n (parentsOf g n) x x' u))

/-- **C172** (exact boundary) For clash-free variables, positive cardinalities and a node with `c` states and parents with cardinalities `ps` (the
indexes being exactly representable): for *every* file of raw trajectories with nondecreasing time stamps and states in range the estimator, with every
float operation rounded to 53 bits, delivers the statistics of the raw trajectories if and only if every parent has one state or `c`, and the first two
parents have equally many. -/
theorem float64_raw_to_statistics_iff (vars : List Label) (hcl : NoSuffixClash vars) (hnd : vars.Nodup) (hT : "Time" ∉ vars) (cards : List Nat)
    (hlen : cards.length = vars.length) (hcpos : ∀ c ∈ cards, 0 < c) (es : List Edge) (g : NetworkGraph) (hg : Reach (builtStruct vars cards es) g)
    (n : Label) (hn : n ∈ vars) (c : Nat) (hcn : (builtStruct vars cards es).getStatesNumber n = .ok c) (ps : List Nat)
    (hps : ps.map Except.ok = (parentsOf g n).map (builtStruct vars cards es).getStatesNumber)
    (hN : c * c * (c + topParentSlot ps) ≤ 2 ^ 53) :
    (∀ (f₀ : Frame) (rest : List Frame) (raws : List RawTraj), f₀.names = "Time" :: vars →
        List.Forall₂ (fun f raw => Holds "Time" vars f raw ∧ LastLabelUnique f) (f₀ :: rest) raws → stepRows raws ≠ [] →
        (∀ raw ∈ raws, (raw.map Prod.fst).Pairwise (· ≤ ·)) → (stepRows raws).length + 1 < 2 ^ 53 → RawInRange cards raws →
        ∃ (p : SamplePath) (t : Trajectory), buildFromRawF (binRound 53) (f₀ :: rest) ⟨List.range vars.length, vars, cards⟩ es = .ok p ∧
          p.trajectories = some t ∧ RawStatisticsF vars raws t g n c ps) ↔
      ExactCards c ps := by
  have hv : vars ≠ [] := List.ne_nil_of_mem hn
  have hpar : ∀ p ∈ parentsOf g n, p ∈ vars := by
    intro p hp
    have := mem_parentsOf hp
    rw [hg.inv.2] at this; exact this
  constructor
  · intro h
    refine exactCards_of_rough _ g hg hcpos (built_ownColumns vars cards es) n hn c hcn ps hps (fun j hj => ?_)
    have hj' := hj
    obtain ⟨f₀, rest, raws, hraws, hhdr, hfor, hsr, hrange, hb, hwC⟩ := file_of_rows hnd hT hlen hj (by simp [oneRow])
    have hsteps : (stepRows raws).length = 1 := by
      have : (builtTraj vars raws).rows.length = 1 := by rw [hb]; rfl
      exact this
    have hmono : ∀ raw ∈ raws, (raw.map Prod.fst).Pairwise (· ≤ ·) := by
      intro raw hraw
      rw [hraws] at hraw
      simp only [rowRaws, oneRow, List.zipWith_cons_cons, List.zipWith_nil_right, List.mem_singleton] at hraw
      subst hraw
      simp
    obtain ⟨p, t, h1, h2, sofcF, h3, h4, h5⟩ := h _ _ _ hhdr hfor hsr hmono (by rw [hsteps]; norm_num) hrange
    obtain ⟨p', b1, -, b3, -⟩ := raw_buildsF (binRound 53) vars hcl hv _ _ _ hhdr hfor hsr cards es
    rw [h1] at b1; cases b1
    rw [h2] at b3; cases b3
    have hone : binRound 53 1 = 1 := by
      have := binRound_exact 53 (by norm_num) 1 0 (by norm_num)
      simpa using this
    have hround : (oneRow (builtStruct vars cards es).total j).roundTimes (binRound 53) = oneRow (builtStruct vars cards es).total j := by
      simp only [Trajectory.roundTimes, oneRow, List.map_cons, List.map_nil, hone]
    rw [hb, hround] at h3
    have hfe := float64_exact _ g hg hcpos n hn c hcn ps hps _ hj 0 [1] (by simp [oneRow]) (by norm_num) hN (by simp [oneRow])
    rw [h3] at hfe
    cases hest : ParamsEst.estimate (oneRow (builtStruct vars cards es).total j) g n with
    | error e => rw [hest] at hfe; cases hfe
    | ok sofc =>
      rw [hest] at hfe
      simp only [Except.map, Except.ok.injEq] at hfe
      subst hfe
      refine ⟨sofc, rfl, h4, fun r u hru => ?_⟩
      obtain ⟨cim, c1, c2, -⟩ := h5 r u hru
      simp only [List.getElem?_map, Option.map_eq_some_iff] at c1
      obtain ⟨cim', e1, rfl⟩ := c1
      refine ⟨cim', e1, fun x hx => ?_⟩
      obtain ⟨T, k1, k2⟩ := c2 x hx
      refine ⟨T, k1, fun hT0 => ?_⟩
      subst hT0
      rw [← hb, residence_built (cards := cards) (es := es) hnd hwC hn hpar]
      rw [hsteps, zero_sub, abs_neg] at k2
      by_contra hne
      have hpos' : 0 < |rawResidence vars raws n (parentsOf g n) x u| := abs_pos.2 hne
      have := le_abs_self (rawResidence vars raws n (parentsOf g n) x u)
      norm_num at k2
      nlinarith
  · intro hex f₀ rest raws hhdr h hdata hmono hrows hrange
    obtain ⟨p, s, t, b1, b2, b3, -, -, b4⟩ := float64_raw_to_statistics_partial vars hcl hv f₀ rest raws hhdr h hdata hmono hrows cards hlen hrange hcpos es
    obtain ⟨p', c1, c2, -⟩ := raw_buildsF (binRound 53) vars hcl hv f₀ rest raws hhdr h hdata cards es
    rw [b1] at c1; cases c1
    rw [b2] at c2; cases c2
    exact ⟨p, t, b1, b3, b4 g hg n hn c ps hcn hps hex hN⟩

/-- The hypotheses are met, by a two-state parent of a three-state child (where some file is misread) and of a two-state child (where none is). -/
example : NoSuffixClash ["X", "Y"] ∧ (["X", "Y"] : List Label).Nodup ∧ ("Time" : Label) ∉ ["X", "Y"] ∧
    Reach (builtStruct ["X", "Y"] [2, 3] [("X", "Y")]) (NetworkGraph.new (builtStruct ["X", "Y"] [2, 3] [("X", "Y")])) ∧
    (builtStruct ["X", "Y"] [2, 3] [("X", "Y")]).getStatesNumber "Y" = .ok 3 ∧
    [2].map Except.ok = (parentsOf (NetworkGraph.new (builtStruct ["X", "Y"] [2, 3] [("X", "Y")])) "Y").map
      (builtStruct ["X", "Y"] [2, 3] [("X", "Y")]).getStatesNumber ∧
    3 * 3 * (3 + topParentSlot [2]) ≤ 2 ^ 53 ∧ ¬ ExactCards 3 [2] ∧ ExactCards 2 [2] :=
  ⟨by unfold NoSuffixClash; decide, by decide, by decide, .new ⟨⟨by decide, rfl, rfl⟩, by decide⟩, rfl, rfl, by decide,
    fun h => by have := h.1 2 (by simp); omega, ⟨by simp, by intro p q rest h; cases h⟩⟩

end PyCTBN
