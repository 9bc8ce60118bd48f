import Verif.Props.SampleFlow
import Verif.Props.SampleEnd

/-!
# A concrete network: the hypotheses of the sampling and exporting theorems are met
-/

namespace PyCTBN
open Spec

namespace Demo

/-- The matrix of `X` (three states, no parents). -/
def xCim : List (List ℚ) := [[-2, 1, 1], [1, -3, 2], [1, 0, -1]]

/-- The matrices of `Y` (two states, parent `X`). -/
def yCim : Nat → List (List ℚ)
  | 0 => [[-1, 1], [2, -2]]
  | 1 => [[-3, 3], [1/2, -1/2]]
  | _ => [[-1/4, 1/4], [5, -5]]

/-- `X → Y`. -/
def ctbn : Ctbn where
  vars := ["X", "Y"]
  card := fun v => if v = "X" then 3 else 2
  parents := fun v => if v = "Y" then ["X"] else []
  cim := fun v u => if v = "X" then xCim else yCim (u.headD 0)

def mkCim (m : List (List ℚ)) : Cim := ⟨[], [], m⟩

def sX : SetOfCims := ⟨"X", [], 3, [[]], false, [mkCim xCim]⟩
def sY : SetOfCims := ⟨"Y", [3], 2, [[0], [1], [2]], false, [mkCim (yCim 0), mkCim (yCim 1), mkCim (yCim 2)]⟩

/-- The sampler object of `X → Y`. -/
def net : SampleNet := SampleNet.new ["X", "Y"] [("X", "Y")] [("X", sX), ("Y", sY)]

def draws : SampleDraws := ⟨fun n i => 1 / (n + 2 + i), fun n => n⟩

theorem sX_stores : Stores [] (fun _ => xCim) sX where
  len := rfl
  nodup := by decide
  mem := by
    intro u
    simp only [sX, List.mem_singleton, InRangeAssign]
    constructor
    · rintro rfl; exact .nil
    · intro h; cases h; rfl
  beside := by
    intro k u m h1 h2
    have hk : k < 1 := by have := (List.getElem?_eq_some_iff.1 h2).1; simpa [sX] using this
    have : k = 0 := by omega
    subst this
    simp only [sX, List.getElem?_cons_zero, Option.some.injEq] at h2
    rw [← h2]; rfl
  single := by intro h; simp at h

theorem sY_stores : Stores [3] (fun u => yCim (u.headD 0)) sY where
  len := rfl
  nodup := by decide
  mem := by
    intro u
    simp only [sY, InRangeAssign]
    constructor
    · intro h
      simp only [List.mem_cons, List.not_mem_nil, or_false] at h
      rcases h with rfl | rfl | rfl <;> exact .cons (by decide) .nil
    · intro h
      cases h with
      | cons h1 h2 =>
        cases h2
        rename_i x
        have : x = 0 ∨ x = 1 ∨ x = 2 := by omega
        rcases this with rfl | rfl | rfl <;> simp
  beside := by
    intro k u m h1 h2
    have hk : k < 3 := by have := (List.getElem?_eq_some_iff.1 h2).1; simpa [sY] using this
    have : k = 0 ∨ k = 1 ∨ k = 2 := by omega
    rcases this with rfl | rfl | rfl <;>
    · simp [sY] at h1 h2
      subst h1 h2; rfl
  single := by
    intro _ k x h
    have hk : k < 3 := by have := (List.getElem?_eq_some_iff.1 h).1; simpa [sY] using this
    have : k = 0 ∨ k = 1 ∨ k = 2 := by omega
    rcases this with rfl | rfl | rfl <;> simpa [sY] using h

theorem describes : Describes net ctbn where
  vnames := rfl
  parents := by decide
  cims := by
    intro v hv
    simp only [ctbn, List.mem_cons, List.not_mem_nil, or_false] at hv
    rcases hv with rfl | rfl
    · exact ⟨sX, rfl, sX_stores⟩
    · exact ⟨sY, rfl, sY_stores⟩

/-- Decidable form of `MatrixOK`, to check literals. -/
theorem matrixOK_of {c : Nat} {m : List (List ℚ)} (h : m.length = c ∧ (∀ r ∈ m, r.length = c) ∧ (∀ i < c, cell m i i ≤ 0) ∧
    (∀ i < c, ∀ j < c, j ≠ i → 0 ≤ cell m i j) ∧ ∀ i < c, ∃ j < c, j ≠ i ∧ 0 < cell m i j) : Ctbn.MatrixOK c m :=
  ⟨h.1, h.2.1, h.2.2.1, h.2.2.2.1, h.2.2.2.2⟩

theorem ok : ctbn.OK where
  nonempty := by simp [ctbn]
  nodup := by decide
  closed := by decide
  pos := by decide
  cims := by
    intro v hv u hu
    simp only [ctbn, List.mem_cons, List.not_mem_nil, or_false] at hv
    rcases hv with rfl | rfl
    · have hc : Ctbn.MatrixOK 3 xCim := matrixOK_of (by decide +kernel)
      exact hc
    · have hu' := (sY_stores.mem u).2 hu
      simp only [sY, List.mem_cons, List.not_mem_nil, or_false] at hu'
      rcases hu' with rfl | rfl | rfl <;> exact matrixOK_of (by decide +kernel)

/-- C68-C71, C73: three transitions; the sample has four rows, the last being the terminator. -/
example : net.sample (-1) 3 draws 10 = .ok [(0, [0, 0]), (3333/10000, [0, 1]), (8333/10000, [0, 0]), (1, [-1, -1])] := by decide +kernel

theorem samples3 : Samples net (-1) 3 draws [(0, [0, 0]), (3333/10000, [0, 1]), (8333/10000, [0, 0]), (1, [-1, -1])] := ⟨10, by decide +kernel⟩

example : ∃ (before : List (ℚ × List Nat)) (t : ℚ),
    [(0, [0, 0]), (3333/10000, [0, 1]), (8333/10000, [0, 0]), (1, [-1, -1])] =
      before.map (fun r => (r.1, r.2.map (fun x : Nat => (x : ℤ)))) ++ [(t, ctbn.vars.map (fun _ => (-1 : ℤ)))] := by
  obtain ⟨b, t, h, -⟩ := sample_shape describes ok samples3
  exact ⟨b, t, h⟩

/-- C69, with an end time only. -/
example : net.sample (3/2) (-1) draws 30 = .ok [(0, [0, 0]), (3333/10000, [0, 1]), (8333/10000, [0, 0]), (1, [-1, -1])] := by decide +kernel

/-- C70: constant draws are bounded away from 0 after scaling, so that sampling with an end time returns. -/
example : ∃ rows, Samples net 100 (-1) ⟨fun _ _ => 1, fun n => n⟩ rows := by
  obtain ⟨rows, h, -⟩ := sample_end_time (δ := 1 / 4) (tEnd := 100) (draws := ⟨fun _ _ => 1, fun n => n⟩) describes ok (by norm_num) (by
    intro vals hr v hv n i
    obtain ⟨h1, h2⟩ := hr
    have hx := h2 "X" (by decide)
    have hy := h2 "Y" (by decide)
    obtain ⟨x, y, rfl⟩ : ∃ x y, vals = [x, y] := by
      match vals, h1 with
      | [x, y], _ => exact ⟨x, y, rfl⟩
    have hx' : x < 3 := hx
    have hy' : y < 2 := hy
    simp only [mul_one]
    simp only [ctbn, List.mem_cons, List.not_mem_nil, or_false] at hv
    have hall : ∀ x < 3, ∀ y < 2, ∀ v ∈ ["X", "Y"], (1 / 4 : ℚ) ≤ ctbn.exitRate [x, y] v := by decide +kernel
    exact hall x hx' y hy' v (by simpa using hv)) (fun _ _ => by norm_num) (by norm_num) (-1)
  exact ⟨rows, h⟩

/-- C72: the exit intensity of `X` in state 0 is 2, so its waiting time is twice the draw instead of half of it. -/
example : ctbn.exitRate [0, 0] "X" = 2 := by decide +kernel

/-- C75: two requests, the second worker finishing first. -/
example : net.multi (some [1/2, 1]) none (fun _ => draws) [1, 0] 30 =
    .ok (some [[(0, [0, 0]), (3333/10000, [0, 1]), (8333/10000, [-1, -1])], [(0, [0, 0]), (3333/10000, [-1, -1])]]) := by decide +kernel

/-- C75: a worker that fails: `Y` has no CIMs. -/
example : (SampleNet.new ["Y"] [] []).multi (some [1, 1]) none (fun _ => draws) [0, 1] 5 = .ok (some []) := by decide +kernel

/-- C76, C77: the exported dictionary of `Y`, and what is read back. -/
example : (exportNode "Y" ["X"] sY).map (fun d => d.map Prod.fst) = .ok ["X=0", "X=1", "X=2"] := by decide +kernel

example : ∃ json net', cimsToJson ["X", "Y"] [("X", "Y")] [("X", sX), ("Y", sY)] = .ok json ∧
    SampleNet.ofImporter ["X", "Y"] [("X", "Y")] json = .ok net' ∧ Describes net' ctbn := by
  obtain ⟨j, n', h1, h2, h3, -⟩ := network_reads_back_partial (N := ctbn) describes ok (by simp) (by
    intro v hv
    simp only [ctbn, List.mem_cons, List.not_mem_nil, or_false] at hv
    rcases hv with rfl | rfl <;> simp [PlainLabel]) (by
    intro v hv
    simp only [ctbn, List.mem_cons, List.not_mem_nil, or_false] at hv
    rcases hv with rfl | rfl <;> decide)
  exact ⟨j, n', h1, h2, h3⟩

/-- C74: the samples can be imported. -/
example : ∃ (p : SamplePath), buildFromRaw ([[(0, [0, 0]), (3333/10000, [0, 1]), (8333/10000, [0, 0]), (1, [-1, -1])]].map
    (SampleNet.frame ctbn.vars)) ⟨List.range 2, ctbn.vars, ctbn.vars.map ctbn.card⟩ [("X", "Y")] = .ok p := by
  obtain ⟨p, s, t, h, -⟩ := sampled_trajectories_estimable_partial describes ok
    (samples := [[(0, [0, 0]), (3333/10000, [0, 1]), (8333/10000, [0, 0]), (1, [-1, -1])]]) (by
      show ∀ v ∈ ctbn.vars, v ++ "S" ∉ ctbn.vars
      decide) (by decide) (by
      intro r hr
      rw [List.mem_singleton] at hr
      subst hr
      exact ⟨_, _, _, samples3⟩) ⟨_, List.mem_singleton_self _, by decide⟩ [("X", "Y")]
  exact ⟨p, h⟩

/-- C86: the generator's own network of two binary variables with one edge is usable. -/
example : ∃ (ng' : NetGen) (N : Ctbn) (table : List Edge) (cims : List (Label × SetOfCims)),
    ((NetGen.new ["X", "Y"] [2, 2]).install [("X", "Y")]).generateCims 1 3 ⟨fun _ _ _ => 1/2, fun _ _ _ _ => 1/2⟩ = .ok ng' ∧
      Describes (SampleNet.new ng'.labels table cims) N ∧ N.OK := by
  obtain ⟨ng', hng⟩ : ∃ ng', ((NetGen.new ["X", "Y"] [2, 2]).install [("X", "Y")]).generateCims 1 3 ⟨fun _ _ _ => 1/2, fun _ _ _ _ => 1/2⟩ = .ok ng' :=
    ⟨{ (NetGen.new ["X", "Y"] [2, 2]).install [("X", "Y")] with cims := some [("X", ⟨"X", [], 2, [[]], false, [⟨[], [], [[-2, 2], [2, -2]]⟩]⟩),
      ("Y", ⟨"Y", [2], 2, [[0], [1]], false, [⟨[], [], [[-2, 2], [2, -2]]⟩, ⟨[], [], [[-2, 2], [2, -2]]⟩]⟩)] }, by decide +kernel⟩
  obtain ⟨N, table, cims, -, -, h3, h4, -⟩ := generated_network_usable (ng := (NetGen.new ["X", "Y"] [2, 2]).install [("X", "Y")]) (es := [("X", "Y")])
    (by decide) (by decide) (by decide) (by decide) rfl (lo := 1) (hi := 3) (by norm_num)
    ⟨fun _ _ _ => by norm_num, fun _ _ _ _ => by norm_num⟩ hng (by
      intro c hc
      have : c = 2 := by simpa [NetGen.install, NetGen.new] using hc
      subst this; norm_num) (by
      intro v hv p q rest h
      have hl : ((["X", "Y"] : List Label).filter (fun p => decide ((p, v) ∈ [(("X", "Y") : Edge)]))).length ≤ 1 := by
        have hv' : v ∈ (["X", "Y"] : List Label) := hv
        simp only [List.mem_cons, List.not_mem_nil, or_false] at hv'
        rcases hv' with rfl | rfl <;> decide
      have := congrArg List.length h
      rw [List.length_map] at this
      simp only [List.length_cons] at this
      have hl2 : (((NetGen.new ["X", "Y"] [2, 2]).install [("X", "Y")]).labels.filter (fun p => decide ((p, v) ∈ [(("X", "Y") : Edge)]))).length ≤ 1 := hl
      omega)
  exact ⟨ng', N, table, cims, hng, h3, h4⟩

end Demo
end PyCTBN
