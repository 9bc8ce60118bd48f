import Verif.Lemmas.NetGen
import Verif.Props.Params
import Verif.Props.EstGraph

/-!
# C64 to C67: the network generator
-/

namespace PyCTBN
open Spec

/-! ## C64: generated graphs -/

theorem mapM_pure_ok {α β : Type} (f : α → β) (l : List α) : l.mapM (fun a => (.ok (f a) : Py β)) = .ok (l.map f) := by
  induction l with
  | nil => rfl
  | cons a l ih => rw [List.mapM_cons, ih]; rfl

theorem install_graph (ng : NetGen) (es : List Edge) : (ng.install es).graph = some (genGraph ng.labels ng.vals es) := rfl

/-- What a graph installed from pairwise different, closed edges shows: exactly these edges, once each. -/
theorem installed_edges {labels : List Label} {vals : List Nat} {es : List Edge} (hn : labels.Nodup) (hv : vals.length = labels.length)
    (hes : es.Nodup) (hc : ∀ e ∈ es, e.1 ∈ labels ∧ e.2 ∈ labels) : (genGraph labels vals es).edges.Perm es := by
  obtain ⟨hI, hk, he, -⟩ := genGraph_spec hn hv hc
  have hnd : (genGraph labels vals es).graph.keys.Nodup := by rw [hk]; exact hn
  show List.Perm (genGraph labels vals es).graph.edgesView es
  rw [List.perm_ext_iff_of_nodup (edgesView_nodup hnd hI.edgesNodup) hes]
  intro x
  rw [mem_edgesView _ x, he]
  intro y hy
  exact (hI.endpoints y hy).1

theorem allPairs_closed {labels : List Label} : ∀ e ∈ allPairs labels, e.1 ∈ labels ∧ e.2 ∈ labels ∧ e.1 ≠ e.2 := by
  rintro ⟨a, b⟩ h; exact mem_allPairs.1 h

/-- C64.  With `fixed=True` and a density `d ≤ 1` for which `d·n·(n-1)` is a natural number `k` (so `0 ≤ d` if there are two variables), the generated graph has exactly that
many edges, none repeated and no self-loop, for every shuffle; every such set of edges is generated by some shuffle. -/
theorem fixed_density_exact {ng : NetGen} (hn : ng.labels.Nodup) (hv : ng.vals.length = ng.labels.length) {d : ℚ} (h1 : d ≤ 1)
    {k : Nat} (hk : d * ng.labels.length * ((ng.labels.length : ℚ) - 1) = k) :
    (∀ shuffle : List Edge → List Edge, (∀ l, (shuffle l).Perm l) →
      ∃ ng' es, ng.generateGraphFixed (.float d) shuffle = .ok ng' ∧ ng'.dynStr = .ok es ∧ es.length = k ∧ es.Nodup ∧
        ∀ e ∈ es, e.1 ∈ ng.labels ∧ e.2 ∈ ng.labels ∧ e.1 ≠ e.2) ∧
    ∀ want : Finset Edge, want.card = k → (∀ e ∈ want, e.1 ∈ ng.labels ∧ e.2 ∈ ng.labels ∧ e.1 ≠ e.2) →
      ∃ shuffle : List Edge → List Edge, (∀ l, (shuffle l).Perm l) ∧
        ∃ ng' es, ng.generateGraphFixed (.float d) shuffle = .ok ng' ∧ ng'.dynStr = .ok es ∧ es.toFinset = want := by
  have hfc : fixedCount (.float d) ng.labels.length = .ok (k : ℤ) := by
    unfold fixedCount
    simp only [hk]
    rw [if_pos (by simp)]; simp
  have hlen := allPairs_length hn
  have hkle : k ≤ (allPairs ng.labels).length := by
    rw [hlen]
    have : (k : ℚ) ≤ ((ng.labels.length * (ng.labels.length - 1) : ℕ) : ℚ) := by
      rw [← hk]
      rcases Nat.eq_zero_or_pos ng.labels.length with h | h
      · rw [h]; simp
      · have h' : (1 : ℚ) ≤ (ng.labels.length : ℚ) := by exact_mod_cast h
        rw [Nat.cast_mul, Nat.cast_sub h, Nat.cast_one]
        have hp : 0 ≤ (ng.labels.length : ℚ) * ((ng.labels.length : ℚ) - 1) := by
          apply mul_nonneg <;> linarith
        nlinarith
    exact_mod_cast this
  have key : ∀ shuffle : List Edge → List Edge, (∀ l, (shuffle l).Perm l) →
      ng.generateGraphFixed (.float d) shuffle = .ok (ng.install ((shuffle (allPairs ng.labels)).take k)) ∧
      ((shuffle (allPairs ng.labels)).take k).Nodup ∧
      (∀ e ∈ (shuffle (allPairs ng.labels)).take k, e.1 ∈ ng.labels ∧ e.2 ∈ ng.labels ∧ e.1 ≠ e.2) := by
    intro sh hsh
    have hp := hsh (allPairs ng.labels)
    refine ⟨?_, ((hp.nodup_iff).2 (allPairs_nodup hn)).sublist (List.take_sublist _ _), ?_⟩
    · unfold NetGen.generateGraphFixed
      rw [hfc]
      simp only [Except.bind_ok', pyPrefix, if_pos (Int.natCast_nonneg k), Int.toNat_natCast]
      rfl
    · intro e he
      exact allPairs_closed e (hp.mem_iff.1 (List.mem_of_mem_take he))
  constructor
  · intro sh hsh
    obtain ⟨k1, k2, k3⟩ := key sh hsh
    have hperm := installed_edges hn hv k2 (fun e he => ⟨(k3 e he).1, (k3 e he).2.1⟩)
    refine ⟨_, (genGraph ng.labels ng.vals ((sh (allPairs ng.labels)).take k)).edges, k1, rfl, ?_, hperm.nodup_iff.2 k2, fun e he => k3 e (hperm.mem_iff.1 he)⟩
    rw [hperm.length_eq, List.length_take, (hsh _).length_eq]
    omega
  · intro want hcard hwant
    let sh : List Edge → List Edge := fun l => l.filter (fun e => decide (e ∈ want)) ++ l.filter (fun e => !decide (e ∈ want))
    have hsh : ∀ l, (sh l).Perm l := fun l => List.filter_append_perm _ l
    obtain ⟨k1, k2, k3⟩ := key sh hsh
    have hperm := installed_edges hn hv k2 (fun e he => ⟨(k3 e he).1, (k3 e he).2.1⟩)
    refine ⟨sh, hsh, _, (genGraph ng.labels ng.vals ((sh (allPairs ng.labels)).take k)).edges, k1, rfl, ?_⟩
    have hf : ((allPairs ng.labels).filter (fun e => decide (e ∈ want))).toFinset = want := by
      ext e
      simp only [List.mem_toFinset, List.mem_filter, decide_eq_true_eq]
      constructor
      · exact fun h => h.2
      · intro h; obtain ⟨a, b⟩ := e; exact ⟨mem_allPairs.2 (hwant _ h), h⟩
    have hl : ((allPairs ng.labels).filter (fun e => decide (e ∈ want))).length = k := by
      rw [← List.toFinset_card_of_nodup ((allPairs_nodup hn).filter _), hf, hcard]
    have ht : (sh (allPairs ng.labels)).take k = (allPairs ng.labels).filter (fun e => decide (e ∈ want)) := by
      show List.take k (_ ++ _) = _
      rw [List.take_append_of_le_length (by omega), List.take_of_length_le (by omega)]
    rw [List.toFinset_eq_of_perm _ _ hperm, ht, hf]

/-- C64.  With `fixed=True`, a density for which `d·n·(n-1)` is not an integer is rejected with `RuntimeError`, whatever the
shuffle, and nothing is generated. -/
theorem fixed_density_rejects {ng : NetGen} {d : ℚ} (h : ∀ z : ℤ, d * ng.labels.length * ((ng.labels.length : ℚ) - 1) ≠ z)
    (shuffle : List Edge → List Edge) : ng.generateGraphFixed (.float d) shuffle = .error .runtimeError := by
  unfold NetGen.generateGraphFixed fixedCount
  simp only
  rw [if_neg]
  · rfl
  · intro hden
    exact h _ (Rat.den_eq_one_iff _ |>.1 hden).symm

/-- C64 (a gap).  With `fixed=True` a density given as a Python `int`, such as `1`, is rejected with `TypeError`. -/
theorem fixed_density_int {ng : NetGen} (z : ℤ) (shuffle : List Edge → List Edge) :
    ng.generateGraphFixed (.int z) shuffle = .error .typeError := rfl

theorem bernoulli_ok {d : ℚ} (h0 : 0 ≤ d) (h1 : d ≤ 1) (b : Bool) : ∃ x, bernoulli d b = .ok x ∧ (d = 0 → x = false) ∧ (d = 1 → x = true) ∧
    (0 < d → d < 1 → x = b) := by
  unfold bernoulli
  rw [if_neg (by rintro (h | h) <;> linarith)]
  by_cases hd0 : d = 0
  · rw [if_pos hd0]; exact ⟨_, rfl, fun _ => rfl, fun h => by rw [hd0] at h; norm_num at h, fun h => by linarith⟩
  · rw [if_neg hd0]
    by_cases hd1 : d = 1
    · rw [if_pos hd1]; exact ⟨_, rfl, fun h => absurd h hd0, fun _ => rfl, fun _ h => by linarith⟩
    · rw [if_neg hd1]; exact ⟨_, rfl, fun h => absurd h hd0, fun h => absurd h hd1, fun _ _ => rfl⟩

/-- C64.  With `fixed=False` and `0 ≤ d ≤ 1`, the graph has exactly the edges between different variables whose draw was
positive: no self-loop, nothing repeated; density 0 gives no edge and density 1 all of them. -/
theorem random_density_exact {ng : NetGen} (hn : ng.labels.Nodup) (hv : ng.vals.length = ng.labels.length) {d : Density} (h0 : 0 ≤ d.val)
    (h1 : d.val ≤ 1) (coin : Nat → Nat → Bool) :
    ∃ ng' es, ng.generateGraph d coin = .ok ng' ∧ ng'.dynStr = .ok es ∧ es.Nodup ∧
      (∀ e ∈ es, e.1 ∈ ng.labels ∧ e.2 ∈ ng.labels ∧ e.1 ≠ e.2) ∧
      (0 < d.val → d.val < 1 → ∀ i j (a b : Label), ng.labels[i]? = some a → ng.labels[j]? = some b →
        ((a, b) ∈ es ↔ coin i j = true ∧ a ≠ b)) ∧
      (d.val = 0 → es = []) ∧ (d.val = 1 → ∀ a ∈ ng.labels, ∀ b ∈ ng.labels, a ≠ b → (a, b) ∈ es) := by
  choose B hB using fun b => bernoulli_ok h0 h1 b
  let piece : Label × Nat → Label × Nat → List Edge := fun i j => if B (coin i.2 j.2) = true ∧ i.1 ≠ j.1 then [(i.1, j.1)] else []
  let L : List Edge := (ng.labels.zipIdx.map (fun i => ng.labels.zipIdx.map (piece i))).flatten.flatten
  have hrp : randomPairs ng.labels d.val coin = .ok L := by
    unfold randomPairs
    have inner : ∀ i : Label × Nat, (ng.labels.zipIdx.mapM (fun j => do
        let b ← bernoulli d.val (coin i.2 j.2)
        return (if b = true ∧ i.1 ≠ j.1 then [(i.1, j.1)] else [])) : Py _) = .ok (ng.labels.zipIdx.map (piece i)) := by
      intro i
      rw [mapM_congr_py (f' := fun j => (.ok (piece i j) : Py (List Edge))) (by
        intro j _
        rw [(hB (coin i.2 j.2)).1]; rfl)]
      exact mapM_pure_ok _ _
    rw [mapM_congr_py (f' := fun i => (.ok (ng.labels.zipIdx.map (piece i)) : Py (List (List Edge)))) (by
      intro i _; exact inner i)]
    rw [mapM_pure_ok]
    rfl
  have hmem : ∀ (a b : Label), (a, b) ∈ L ↔ ∃ i j, ng.labels[i]? = some a ∧ ng.labels[j]? = some b ∧ B (coin i j) = true ∧ a ≠ b := by
    intro a b
    show (a, b) ∈ List.flatten (List.flatten _) ↔ _
    simp only [List.mem_flatten, List.mem_map]
    constructor
    · rintro ⟨p, ⟨q, ⟨⟨x, i⟩, hx, rfl⟩, hp⟩, hab⟩
      obtain ⟨⟨y, j⟩, hy, rfl⟩ := List.mem_map.1 hp
      simp only [piece] at hab
      split at hab
      · rename_i h
        rw [List.mem_singleton, Prod.mk.injEq] at hab
        obtain ⟨rfl, rfl⟩ := hab
        exact ⟨i, j, List.mem_zipIdx_iff_getElem?.1 hx, List.mem_zipIdx_iff_getElem?.1 hy, h.1, h.2⟩
      · cases hab
    · rintro ⟨i, j, hi, hj, hb, hab⟩
      refine ⟨[(a, b)], ⟨_, ⟨(a, i), List.mem_zipIdx_iff_getElem?.2 hi, rfl⟩, ?_⟩, by simp⟩
      refine List.mem_map.2 ⟨(b, j), List.mem_zipIdx_iff_getElem?.2 hj, ?_⟩
      simp only [piece]
      rw [if_pos ⟨hb, hab⟩]
  have hcl : ∀ e ∈ L, e.1 ∈ ng.labels ∧ e.2 ∈ ng.labels ∧ e.1 ≠ e.2 := by
    rintro ⟨a, b⟩ h
    obtain ⟨i, j, hi, hj, -, hab⟩ := (hmem a b).1 h
    exact ⟨List.mem_of_getElem? hi, List.mem_of_getElem? hj, hab⟩
  obtain ⟨hI, hk, he, -⟩ := genGraph_spec hn hv (edges := L) (fun e h => ⟨(hcl e h).1, (hcl e h).2.1⟩)
  have hnd : (genGraph ng.labels ng.vals L).graph.keys.Nodup := by rw [hk]; exact hn
  have hes : ∀ x, x ∈ (genGraph ng.labels ng.vals L).edges ↔ x ∈ L := by
    intro x
    show x ∈ (genGraph ng.labels ng.vals L).graph.edgesView ↔ _
    rw [mem_edgesView _ x, he]
    intro y hy
    exact (hI.endpoints y hy).1
  refine ⟨ng.install L, (genGraph ng.labels ng.vals L).edges, ?_, rfl, edgesView_nodup hnd hI.edgesNodup,
    fun e h => hcl e ((hes e).1 h), ?_, ?_, ?_⟩
  · unfold NetGen.generateGraph
    rw [hrp]; rfl
  · intro hp hq i j a b hi hj
    rw [hes, hmem]
    constructor
    · rintro ⟨i', j', hi', hj', hb, hab⟩
      obtain ⟨hl1, e1⟩ := List.getElem?_eq_some_iff.1 hi
      obtain ⟨hl2, e2⟩ := List.getElem?_eq_some_iff.1 hi'
      obtain ⟨hl3, e3⟩ := List.getElem?_eq_some_iff.1 hj
      obtain ⟨hl4, e4⟩ := List.getElem?_eq_some_iff.1 hj'
      have := hn.getElem_inj_iff.1 (e1.trans e2.symm)
      subst this
      have := hn.getElem_inj_iff.1 (e3.trans e4.symm)
      subst this
      rw [(hB _).2.2.2 hp hq] at hb
      exact ⟨hb, hab⟩
    · rintro ⟨hb, hab⟩
      exact ⟨i, j, hi, hj, by rw [(hB _).2.2.2 hp hq]; exact hb, hab⟩
  · intro hz
    rw [List.eq_nil_iff_forall_not_mem]
    rintro ⟨a, b⟩ h
    obtain ⟨i, j, -, -, hb, -⟩ := (hmem a b).1 ((hes _).1 h)
    rw [(hB _).2.1 hz] at hb
    cases hb
  · intro ho a ha b hb hab
    obtain ⟨i, hi⟩ := List.mem_iff_getElem?.1 ha
    obtain ⟨j, hj⟩ := List.mem_iff_getElem?.1 hb
    exact (hes _).2 ((hmem a b).2 ⟨i, j, hi, hj, (hB _).2.2.1 ho, hab⟩)

/-- C64.  With `fixed=False`, a density outside `[0, 1]` is rejected with `ValueError` as soon as there is a variable. -/
theorem random_density_rejects {ng : NetGen} (hne : ng.labels ≠ []) {d : Density} (h : d.val < 0 ∨ 1 < d.val) (coin : Nat → Nat → Bool) :
    ng.generateGraph d coin = .error .valueError := by
  unfold NetGen.generateGraph randomPairs
  obtain ⟨x, l, hl⟩ := List.exists_cons_of_ne_nil hne
  rw [hl]
  simp [List.zipIdx_cons, List.mapM_cons, bernoulli, h]

example : ((NetGen.new ["X", "Y", "Z"] [2, 2, 3]).generateGraphFixed (.float (1/2)) List.reverse >>= NetGen.dynStr)
    = .ok [("Y", "Z"), ("Z", "Y"), ("Z", "X")] := by decide +kernel

/-! ## C66: generated CIMs -/

theorem sum_erase_nonneg {c i : Nat} (hi : i < c) {r : Nat → ℚ} (hr : ∀ j, 0 ≤ r j) :
    0 ≤ ((List.range c).map r).sum - r i ∧ ∀ j < c, j ≠ i → r j ≤ ((List.range c).map r).sum - r i := by
  have h := sum_pick hi r 0
  rw [add_zero] at h
  rw [← h]
  have hnn : ∀ x ∈ (List.range c).map (fun j => if j = i then 0 else r j), 0 ≤ x := by
    intro x hx
    obtain ⟨j, -, rfl⟩ := List.mem_map.1 hx
    split
    · exact le_refl _
    · exact hr j
  refine ⟨List.sum_nonneg hnn, fun j hj hji => ?_⟩
  refine List.single_le_sum hnn _ (List.mem_map.2 ⟨j, List.mem_range.2 hj, ?_⟩)
  rw [if_neg hji]

theorem genRow_spec {d : ℚ} (hd : 0 ≤ d) {c i : Nat} (hi : i < c) {r : Nat → ℚ} (hr : ∀ j, 0 ≤ r j) {row : List ℚ}
    (h : NetGen.genRow d c i r = .ok row) :
    ∃ f : Nat → ℚ, row = (List.range c).map f ∧ |f i + d| ≤ 5 / 100000 ∧ (∀ j < c, j ≠ i → 0 ≤ f j) ∧
      (1 < c → |((List.range c).map f).sum| ≤ c * (5 / 100000)) := by
  unfold NetGen.genRow at h
  simp only at h
  by_cases hz : ((List.range c).map r).sum - r i = 0 ∧ 1 < c
  · rw [if_pos hz] at h; cases h
  rw [if_neg hz] at h
  simp only [Except.ok.injEq] at h
  set s := ((List.range c).map r).sum - r i with hs
  have hsnn : 0 ≤ s := (sum_erase_nonneg hi hr).1
  refine ⟨_, h.symm, ?_, ?_, ?_⟩
  · simp only [if_true]
    have := round4_near (-d)
    rw [abs_le] at this ⊢
    constructor <;> linarith [this.1, this.2]
  · intro j hj hji
    rw [if_neg hji]
    exact round4_nonneg (mul_nonneg (div_nonneg (hr j) hsnn) hd)
  · intro hc
    have hs0 : s ≠ 0 := fun h0 => hz ⟨h0, hc⟩
    have hnear := sum_round4_near c (fun j => if j = i then -d else r j / s * d)
    have hex : ((List.range c).map (fun j => if j = i then -d else r j / s * d)).sum = 0 := by
      rw [sum_pick hi (fun j => r j / s * d), sum_mul_right']
      have : ((List.range c).map r).sum = s + r i := by rw [hs]; ring
      rw [this]
      field_simp
      ring
    rw [hex, sub_zero] at hnear
    refine hnear.trans (le_of_eq ?_)
    norm_num

/-- C66 (partial).  For a variable with at least two states and `0 ≤ min_val ≤ max_val`, every generated CIM is an intensity matrix
up to rounding, with exit intensities in `[min_val, max_val]`, whatever the draws.  Missing: variables with one state, whose
matrix is `[[-d]]` (`generated_cim_one_state`). -/
theorem generated_cim_intensity_partial {lo hi : ℚ} (h0 : 0 ≤ lo) (hle : lo ≤ hi) {c : Nat} (hc : 2 ≤ c) {u : Nat → ℚ} {r : Nat → Nat → ℚ}
    (hu : ∀ a, 0 ≤ u a ∧ u a < 1) (hr : ∀ a b, 0 ≤ r a b) {m : List (List ℚ)} (h : NetGen.genCim lo hi c u r = .ok m) :
    NearIntensity lo hi c m := by
  unfold NetGen.genCim at h
  have hf := mapM_ok_mem h
  have hlen : m.length = c := by rw [← hf.length_eq]; simp
  have hd : ∀ i, lo ≤ (hi - lo) * u i + lo ∧ (hi - lo) * u i + lo ≤ hi := by
    intro i
    obtain ⟨a, b⟩ := hu i
    constructor
    · have := mul_nonneg (sub_nonneg.2 hle) a; linarith
    · have := mul_le_mul_of_nonneg_left b.le (sub_nonneg.2 hle); linarith
  have hrow : ∀ i < c, ∃ f : Nat → ℚ, m[i]? = some ((List.range c).map f) ∧ |f i + ((hi - lo) * u i + lo)| ≤ 5 / 100000 ∧
      (∀ j < c, j ≠ i → 0 ≤ f j) ∧ |((List.range c).map f).sum| ≤ c * (5 / 100000) := by
    intro i hi'
    have h1 : i < (List.range c).length := by simpa using hi'
    have hg := List.Forall₂.get hf h1 (by rw [hlen]; exact hi')
    simp only [List.get_eq_getElem, List.getElem_range] at hg
    obtain ⟨f, k1, k2, k3, k4⟩ := genRow_spec (le_trans h0 (hd i).1) hi' (hr i) hg
    refine ⟨f, ?_, k2, k3, k4 (by omega)⟩
    rw [← k1]
    exact List.getElem?_eq_getElem _
  have hcell : ∀ i < c, ∀ f : Nat → ℚ, m[i]? = some ((List.range c).map f) → ∀ j < c, cell m i j = f j := by
    intro i _ f hf' j hj
    simp [cell, hf', List.getElem?_range hj]
  refine ⟨hlen, ?_, ?_, ?_, ?_⟩
  · intro row hrow'
    obtain ⟨i, hi'⟩ := List.mem_iff_getElem?.1 hrow'
    have hic : i < c := by rw [← hlen]; exact (List.getElem?_eq_some_iff.1 hi').1
    obtain ⟨f, k1, -⟩ := hrow i hic
    rw [k1] at hi'
    rw [← Option.some.inj hi']
    simp
  · intro i hi'
    obtain ⟨f, k1, k2, -⟩ := hrow i hi'
    exact ⟨_, (hd i).1, (hd i).2, by rw [hcell i hi' f k1 i hi']; exact k2⟩
  · intro i hi' j hj hji
    obtain ⟨f, k1, -, k3, -⟩ := hrow i hi'
    rw [hcell i hi' f k1 j hj]
    exact k3 j hj hji
  · intro i hi'
    obtain ⟨f, k1, -, -, k4⟩ := hrow i hi'
    have : (List.range c).map (cell m i) = (List.range c).map f := by
      apply List.map_congr_left
      intro j hj
      exact hcell i hi' f k1 j (List.mem_range.1 hj)
    rw [this]; exact k4

/-- C66.  With positive draws generation succeeds. -/
theorem genCim_returns {lo hi : ℚ} {c : Nat} {u : Nat → ℚ} {r : Nat → Nat → ℚ} (hr : ∀ a b, 0 < r a b) :
    ∃ m, NetGen.genCim lo hi c u r = .ok m := by
  unfold NetGen.genCim
  obtain ⟨m, hm, -⟩ := mapM_ok_of_forall (fun i => NetGen.genRow ((hi - lo) * u i + lo) c i (r i)) (List.range c) (by
    intro i hi'
    have hi' := List.mem_range.1 hi'
    unfold NetGen.genRow
    simp only
    rw [if_neg]
    · exact ⟨_, rfl⟩
    · rintro ⟨h1, h2⟩
      have hh := (sum_erase_nonneg hi' (fun j => (hr i j).le)).2 (if i = 0 then 1 else 0) (by split <;> omega) (by split <;> omega)
      rw [h1] at hh
      exact absurd (hr i _) (not_lt.2 hh))
  exact ⟨m, hm⟩

/-- C66 (refuted for one state).  The CIM of a variable with a single state is `[[-d]]` up to rounding: its row does not sum to 0. -/
theorem generated_cim_one_state (lo hi : ℚ) (u : Nat → ℚ) (r : Nat → Nat → ℚ) :
    NetGen.genCim lo hi 1 u r = .ok [[round4 (-((hi - lo) * u 0 + lo))]] := by
  unfold NetGen.genCim NetGen.genRow
  simp [List.range_succ, List.mapM_cons, pure, Except.pure]

example : NetGen.genCim 1 3 2 (fun _ => 1/2) (fun a b => (a + b + 1) / 7) = .ok [[-2, 2], [2, -2]] := by decide +kernel

/-! ## C65: one CIM per parent assignment -/

/-- What `generate_cims` leaves for the graph made of the edges `es`. -/
theorem generate_cims_spec {ng : NetGen} (hn : ng.labels.Nodup) (hv : ng.vals.length = ng.labels.length) {es : List Edge}
    (hes : ∀ e ∈ es, e.1 ∈ ng.labels ∧ e.2 ∈ ng.labels) (hg : ng.graph = some (genGraph ng.labels ng.vals es)) {lo hi : ℚ}
    {draws : NetGen.CimDraws} {ng' : NetGen} (h : ng.generateCims lo hi draws = .ok ng') :
    ∃ L, ng'.cims = some L ∧ ng'.graph = ng.graph ∧ ng'.labels = ng.labels ∧ ng'.vals = ng.vals ∧ L.map Prod.fst = ng.labels ∧
      ∀ i l c, ng.labels[i]? = some l → ng.vals[i]? = some c → ∃ s cards, L[i]? = some (l, s) ∧ s.nodeStates = c ∧
        cards.map Except.ok = (ng.labels.filter (fun p => decide ((p, l) ∈ es))).map (genStruct ng.labels ng.vals es).getStatesNumber ∧
        s.parentsStates = cards ∧ s.pCombs = buildPCombs cards ∧ s.cims.length = cards.prod ∧
        ∀ k < cards.prod, ∃ m, s.cims[k]? = some ⟨[], [], m⟩ ∧ NetGen.genCim lo hi c (draws.u i k) (draws.r i k) = .ok m := by
  obtain ⟨-, -, -, hpar⟩ := genGraph_spec hn hv hes
  unfold NetGen.generateCims at h
  rw [hg] at h
  simp only at h
  cases hm : ng.labels.zipIdx.mapM (fun p => do
      let card ← pyGet ng.vals p.2
      let s ← NetGen.genNode (genGraph ng.labels ng.vals es) lo hi card draws p.1 p.2
      return (p.1, s)) with
  | error e => rw [hm] at h; simp at h
  | ok L =>
    rw [hm] at h
    simp only [Except.bind_ok', Except.pure_eq_ok', Except.ok.injEq] at h
    subst h
    have hf := mapM_ok_mem hm
    have hlen : L.length = ng.labels.length := by rw [← hf.length_eq]; simp
    have node : ∀ i l c, ng.labels[i]? = some l → ng.vals[i]? = some c → ∃ s, L[i]? = some (l, s) ∧
        NetGen.genNode (genGraph ng.labels ng.vals es) lo hi c draws l i = .ok s := by
      intro i l c hl hc
      obtain ⟨hi', hl'⟩ := List.getElem?_eq_some_iff.1 hl
      have hg := List.Forall₂.get hf (by simpa using hi') (by rw [hlen]; exact hi')
      simp only [List.get_eq_getElem, List.getElem_zipIdx, Nat.zero_add, hl', pyGet_ok.2 hc, Except.bind_ok'] at hg
      cases hs : NetGen.genNode (genGraph ng.labels ng.vals es) lo hi c draws l i with
      | error e => rw [hs] at hg; simp at hg
      | ok s =>
        rw [hs] at hg
        simp only [Except.bind_ok', Except.pure_eq_ok', Except.ok.injEq] at hg
        exact ⟨s, by rw [List.getElem?_eq_getElem (by rw [hlen]; exact hi'), hg], rfl⟩
    refine ⟨L, rfl, hg.symm, rfl, rfl, ?_, ?_⟩
    · apply List.ext_getElem?
      intro i
      rw [List.getElem?_map]
      by_cases hi' : i < ng.labels.length
      · have hl := List.getElem?_eq_getElem hi'
        obtain ⟨s, k1, -⟩ := node i _ _ hl (List.getElem?_eq_getElem (by rw [hv]; exact hi'))
        rw [k1, hl]; rfl
      · rw [List.getElem?_eq_none (by omega), List.getElem?_eq_none (by omega)]; rfl
    · intro i l c hl hc
      obtain ⟨s, k1, k2⟩ := node i l c hl hc
      obtain ⟨info, j1, j2, j3⟩ := hpar l (List.mem_of_getElem? hl)
      unfold NetGen.genNode at k2
      rw [j1] at k2
      simp only [Except.bind_ok'] at k2
      have hprod : (if info.parents.length ≠ 0 then (buildPCombs info.vals).length else 1) = info.vals.prod := by
        have hpl : info.vals.length = info.parents.length := by simpa using congrArg List.length j3
        split
        · rw [buildPCombs_length]
        · rename_i h0
          have : info.vals = [] := List.length_eq_zero_iff.1 (by omega)
          rw [this]; rfl
      rw [hprod] at k2
      cases hcs : (List.range info.vals.prod).mapM (fun k => NetGen.genCim lo hi c (draws.u i k) (draws.r i k)) with
      | error e => rw [hcs] at k2; simp at k2
      | ok ms =>
        rw [hcs] at k2
        simp only [Except.bind_ok', Except.pure_eq_ok', Except.ok.injEq] at k2
        subst k2
        have hf2 := mapM_ok_mem hcs
        have hlen2 : ms.length = info.vals.prod := by rw [← hf2.length_eq]; simp
        refine ⟨_, info.vals, k1, rfl, by rw [j3, j2], rfl, rfl, by simp [hlen2], ?_⟩
        intro k hk
        have hg2 := List.Forall₂.get hf2 (by simpa using hk) (by rw [hlen2]; exact hk)
        simp only [List.get_eq_getElem, List.getElem_range] at hg2
        refine ⟨_, ?_, hg2⟩
        rw [List.getElem?_map, List.getElem?_eq_getElem (by rw [hlen2]; exact hk)]
        rfl

/-- C65 (partial).  `generate_cims` gives every variable exactly as many CIMs as its parents have joint states (one CIM without
parents), each of the variable's own size; and if the first two parents have equally many states, the CIM set lists every
assignment of the parents exactly once and nothing else.  Missing: parents of different cardinality, whose assignments are listed
with the first two exchanged (`generated_assignments_wrong`). -/
theorem generated_cims_cover_partial {ng : NetGen} (hn : ng.labels.Nodup) (hv : ng.vals.length = ng.labels.length) {es : List Edge}
    (hes : ∀ e ∈ es, e.1 ∈ ng.labels ∧ e.2 ∈ ng.labels) (hg : ng.graph = some (genGraph ng.labels ng.vals es)) {lo hi : ℚ}
    {draws : NetGen.CimDraws} {ng' : NetGen} (h : ng.generateCims lo hi draws = .ok ng') {i : Nat} {l : Label} {c : Nat}
    (hl : ng.labels[i]? = some l) (hc : ng.vals[i]? = some c) {cards : List Nat}
    (hcards : cards.map Except.ok = (ng.labels.filter (fun p => decide ((p, l) ∈ es))).map (genStruct ng.labels ng.vals es).getStatesNumber) :
    ∃ L s, ng'.cims = some L ∧ L[i]? = some (l, s) ∧ s.cims.length = cards.prod ∧ s.pCombs.length = cards.prod ∧
      (∀ m ∈ s.cims, m.cim.length = c ∧ ∀ r ∈ m.cim, r.length = c) ∧
      ((∀ p q rest, cards = p :: q :: rest → p = q) → s.pCombs.Nodup ∧ ∀ a, a ∈ s.pCombs ↔ InRangeAssign cards a) := by
  obtain ⟨L, k1, -, -, -, -, k6⟩ := generate_cims_spec hn hv hes hg h
  obtain ⟨s, cards', j1, j2, j3, j4, j5, j6, j7⟩ := k6 i l c hl hc
  have : cards' = cards := by
    have := j3.trans hcards.symm
    exact List.map_injective_iff.2 (fun a b hab => by cases hab; rfl) this
  subst this
  refine ⟨L, s, k1, j1, j6, by rw [j5, buildPCombs_length], ?_, ?_⟩
  · intro m hm
    obtain ⟨k, hk⟩ := List.mem_iff_getElem?.1 hm
    have hlt : k < cards'.prod := by rw [← j6]; exact (List.getElem?_eq_some_iff.1 hk).1
    obtain ⟨m', e1, e2⟩ := j7 k hlt
    rw [hk] at e1
    cases Option.some.inj e1
    have hf := mapM_ok_mem e2
    refine ⟨by dsimp only; rw [← hf.length_eq]; simp, fun r hr => ?_⟩
    obtain ⟨a, ha⟩ := List.mem_iff_getElem?.1 hr
    obtain ⟨hal, hae⟩ := List.getElem?_eq_some_iff.1 ha
    have hg := List.Forall₂.get hf (by rw [hf.length_eq]; exact hal) hal
    simp only [List.get_eq_getElem, hae] at hg
    unfold NetGen.genRow at hg
    simp only at hg
    split at hg
    · cases hg
    · simp only [Except.ok.injEq] at hg
      rw [← hg]; simp
  · intro hex
    have hp := p_combs_enumeration_partial cards' hex
    rw [j5]
    constructor
    · rw [List.nodup_iff_getElem?_ne_getElem?]
      intro a b hab hb heq
      have hbb : (buildPCombs cards')[b]? = some _ := List.getElem?_eq_getElem hb
      have e1 := (hp.1 b _).1 hbb
      have e2 := (hp.1 a _).1 (heq.trans hbb)
      omega
    · intro a
      constructor
      · intro ha
        obtain ⟨k, hk⟩ := List.mem_iff_getElem?.1 ha
        exact ((hp.1 k a).1 hk).1
      · intro ha; exact List.mem_of_getElem? ((hp.1 _ a).2 ⟨ha, rfl⟩)

/-- C65 (refuted in general).  A variable with parents of 2 and 3 states: the generated CIM set has no CIM for the assignment
`(0, 2)`, but one for the impossible `(2, 0)`. -/
theorem generated_assignments_wrong :
    let ng := (NetGen.new ["X", "Y", "Z"] [2, 3, 2]).install [("X", "Z"), ("Y", "Z")]
    ∃ s : SetOfCims, NetGen.genNode (genGraph ng.labels ng.vals [("X", "Z"), ("Y", "Z")]) 1 2 2 ⟨fun _ _ _ => 0, fun _ _ _ _ => 1/2⟩ "Z" 2
      = .ok s ∧ s.parentsStates = [2, 3] ∧ [0, 2] ∉ s.pCombs ∧ [2, 0] ∈ s.pCombs := by
  refine ⟨⟨"Z", [2, 3], 2, buildPCombs [2, 3], false, List.replicate 6 ⟨[], [], [[-1, 1], [1, -1]]⟩⟩, ?_, rfl, by decide, by decide⟩
  decide +kernel

/-- C66 (partial), for the whole network: every CIM of every variable with at least two states is an intensity matrix up to
rounding. -/
theorem generated_network_intensity_partial {ng : NetGen} (hn : ng.labels.Nodup) (hv : ng.vals.length = ng.labels.length) {es : List Edge}
    (hes : ∀ e ∈ es, e.1 ∈ ng.labels ∧ e.2 ∈ ng.labels) (hg : ng.graph = some (genGraph ng.labels ng.vals es)) {lo hi : ℚ}
    (h0 : 0 ≤ lo) (hle : lo ≤ hi) {draws : NetGen.CimDraws} (hd : UnitDraws draws) {ng' : NetGen} (h : ng.generateCims lo hi draws = .ok ng')
    {i : Nat} {l : Label} {c : Nat} (hl : ng.labels[i]? = some l) (hc : ng.vals[i]? = some c) (hc2 : 2 ≤ c) :
    ∃ L s, ng'.cims = some L ∧ L[i]? = some (l, s) ∧ ∀ m ∈ s.cims, NearIntensity lo hi c m.cim := by
  obtain ⟨L, k1, -, -, -, -, k6⟩ := generate_cims_spec hn hv hes hg h
  obtain ⟨s, cards', j1, j2, j3, j4, j5, j6, j7⟩ := k6 i l c hl hc
  refine ⟨L, s, k1, j1, fun m hm => ?_⟩
  obtain ⟨k, hk⟩ := List.mem_iff_getElem?.1 hm
  have hlt : k < cards'.prod := by rw [← j6]; exact (List.getElem?_eq_some_iff.1 hk).1
  obtain ⟨m', e1, e2⟩ := j7 k hlt
  rw [hk] at e1
  cases Option.some.inj e1
  exact generated_cim_intensity_partial h0 hle hc2 (hd.1 i k) (fun a b => (hd.2 i k a b).1) e2

/-- `generate_cims` succeeds with positive draws. -/
theorem generate_cims_returns {ng : NetGen} (hn : ng.labels.Nodup) (hv : ng.vals.length = ng.labels.length) {es : List Edge}
    (hes : ∀ e ∈ es, e.1 ∈ ng.labels ∧ e.2 ∈ ng.labels) (hg : ng.graph = some (genGraph ng.labels ng.vals es)) {lo hi : ℚ}
    {draws : NetGen.CimDraws} (hd : PositiveDraws draws) : ∃ ng', ng.generateCims lo hi draws = .ok ng' := by
  obtain ⟨-, -, -, hpar⟩ := genGraph_spec hn hv hes
  unfold NetGen.generateCims
  rw [hg]
  simp only
  obtain ⟨L, hL, -⟩ := mapM_ok_of_forall (fun p : Label × Nat => do
      let card ← pyGet ng.vals p.2
      let s ← NetGen.genNode (genGraph ng.labels ng.vals es) lo hi card draws p.1 p.2
      return (p.1, s)) ng.labels.zipIdx (by
    rintro ⟨l, i⟩ hli
    have hl := List.mem_zipIdx_iff_getElem?.1 hli
    simp only at hl
    have hi' := (List.getElem?_eq_some_iff.1 hl).1
    obtain ⟨info, j1, -, -⟩ := hpar l (List.mem_of_getElem? hl)
    dsimp only
    rw [pyGet_ok.2 (List.getElem?_eq_getElem (by rw [hv]; exact hi'))]
    simp only [Except.bind_ok']
    unfold NetGen.genNode
    rw [j1]
    simp only [Except.bind_ok']
    obtain ⟨ms, hms, -⟩ := mapM_ok_of_forall
      (fun k => NetGen.genCim lo hi (ng.vals[i]'(by rw [hv]; exact hi')) (draws.u i k) (draws.r i k))
      (List.range (if info.parents.length ≠ 0 then (buildPCombs info.vals).length else 1))
      (fun k _ => genCim_returns (hd i k))
    rw [hms]
    exact ⟨_, rfl⟩)
  rw [hL]
  exact ⟨_, rfl⟩

/-! ## C67: the order of the parents -/

/-- C67.  The parents of a variable read from the generator's edge table, in the order in which they stand there, are the parents
`get_ordered_by_indx_set_of_parents` returns, in the same order: the columns of the generated `p_combs` and the entries of the
stored parent cardinalities belong to them one by one, whatever the order in which the edges were generated. -/
theorem parent_order_agrees {ng : NetGen} (hn : ng.labels.Nodup) (hv : ng.vals.length = ng.labels.length) {es : List Edge}
    (hes : ∀ e ∈ es, e.1 ∈ ng.labels ∧ e.2 ∈ ng.labels) (hg : ng.graph = some (genGraph ng.labels ng.vals es)) {lo hi : ℚ}
    {draws : NetGen.CimDraws} {ng' : NetGen} (h : ng.generateCims lo hi draws = .ok ng') {table : List Edge}
    (ht : ng'.dynStr = .ok table) {i : Nat} {l : Label} (hl : ng.labels[i]? = some l) :
    (∃ info, (genGraph ng.labels ng.vals es).getOrderedParents l = .ok info ∧ info.parents = tableParents table l) ∧
    tableParents table l = ng.labels.filter (fun p => decide ((p, l) ∈ es)) ∧
    ∃ L s, ng'.cims = some L ∧ L[i]? = some (l, s) ∧
      s.parentsStates.map Except.ok = (tableParents table l).map (genStruct ng.labels ng.vals es).getStatesNumber ∧
      ∀ u ∈ s.pCombs, u.length = (tableParents table l).length := by
  obtain ⟨hI, hk, he, hpar⟩ := genGraph_spec hn hv hes
  obtain ⟨L, k1, k2, -, -, -, k6⟩ := generate_cims_spec hn hv hes hg h
  have hi' := (List.getElem?_eq_some_iff.1 hl).1
  obtain ⟨s, cards, j1, j2, j3, j4, j5, j6, j7⟩ := k6 i l _ hl (List.getElem?_eq_getElem (by rw [hv]; exact hi'))
  have htab : tableParents table l = ng.labels.filter (fun p => decide ((p, l) ∈ es)) := by
    unfold NetGen.dynStr at ht
    rw [k2, hg] at ht
    simp only [Except.ok.injEq] at ht
    subst ht
    show tableParents (genGraph ng.labels ng.vals es).graph.edgesView l = _
    rw [tableParents_edgesView (by rw [hk]; exact hn) hI.edgesNodup, hk]
    apply List.filter_congr
    intro p _
    rw [decide_eq_decide, he]
  obtain ⟨info, i1, i2, -⟩ := hpar l (List.mem_of_getElem? hl)
  refine ⟨⟨info, i1, by rw [i2, htab]⟩, htab, L, s, k1, j1, by rw [j4, htab]; exact j3, ?_⟩
  intro u hu
  rw [j5] at hu
  have hlen : cards.length = (tableParents table l).length := by rw [htab]; simpa using congrArg List.length j3
  rw [← hlen]
  exact buildPCombs_width hu

/-- The hypotheses of the theorems above hold of every graph that `generate_graph` generates. -/
theorem generated_graph_form {ng ng' : NetGen} (h : (∃ d shuffle, (∀ l : List Edge, (shuffle l).Perm l) ∧ ng.generateGraphFixed d shuffle = .ok ng') ∨
    ∃ d coin, ng.generateGraph d coin = .ok ng') :
    ng'.labels = ng.labels ∧ ng'.vals = ng.vals ∧ ∃ es, (∀ e ∈ es, e.1 ∈ ng'.labels ∧ e.2 ∈ ng'.labels ∧ e.1 ≠ e.2) ∧
      ng'.graph = some (genGraph ng'.labels ng'.vals es) := by
  rcases h with ⟨d, sh, hsh, h⟩ | ⟨d, coin, h⟩
  · unfold NetGen.generateGraphFixed at h
    cases hf : fixedCount d ng.labels.length with
    | error e => rw [hf] at h; simp at h
    | ok k =>
      rw [hf] at h
      simp only [Except.bind_ok', Except.pure_eq_ok', Except.ok.injEq] at h
      subst h
      refine ⟨rfl, rfl, _, fun e he => ?_, rfl⟩
      have : e ∈ sh (allPairs ng.labels) := by
        unfold pyPrefix at he
        split at he <;> exact List.mem_of_mem_take he
      exact allPairs_closed e ((hsh _).mem_iff.1 this)
  · unfold NetGen.generateGraph at h
    cases hf : randomPairs ng.labels d.val coin with
    | error e => rw [hf] at h; simp at h
    | ok L =>
      rw [hf] at h
      simp only [Except.bind_ok', Except.pure_eq_ok', Except.ok.injEq] at h
      subst h
      refine ⟨rfl, rfl, L, fun e he => ?_, rfl⟩
      unfold randomPairs at hf
      cases hr : ng.labels.zipIdx.mapM (fun i => ng.labels.zipIdx.mapM (fun j => do
          let b ← bernoulli d.val (coin i.2 j.2)
          return (if b = true ∧ i.1 ≠ j.1 then [(i.1, j.1)] else []))) with
      | error x => rw [hr] at hf; simp at hf
      | ok rows =>
        rw [hr] at hf
        simp only [Except.bind_ok', Except.pure_eq_ok', Except.ok.injEq] at hf
        subst hf
        rw [List.mem_flatten] at he
        obtain ⟨p, hp, hep⟩ := he
        rw [List.mem_flatten] at hp
        obtain ⟨q, hq, hpq⟩ := hp
        obtain ⟨⟨a, i⟩, ha, hqa⟩ := ((mapM_ok_mem_iff hr).1 q).1 hq
        obtain ⟨⟨b, j⟩, hb, hpb⟩ := ((mapM_ok_mem_iff hqa).1 p).1 hpq
        cases hbb : bernoulli d.val (coin i j) with
        | error x => rw [hbb] at hpb; simp at hpb
        | ok v =>
          rw [hbb] at hpb
          simp only [Except.bind_ok', Except.pure_eq_ok', Except.ok.injEq] at hpb
          subst hpb
          split at hep
          · rename_i hh
            rw [List.mem_singleton] at hep
            subst hep
            exact ⟨List.mem_of_getElem? (List.mem_zipIdx_iff_getElem?.1 ha), List.mem_of_getElem? (List.mem_zipIdx_iff_getElem?.1 hb), hh.2⟩
          · cases hep

/-- A generated network with a true parent: the hypotheses are met. -/
example : ∃ ng ng', (NetGen.new ["X", "Y"] [2, 2]).generateGraphFixed (.float (1/2)) id = .ok ng ∧
    ng.generateCims 1 3 ⟨fun _ _ _ => 1/2, fun _ _ _ _ => 1/2⟩ = .ok ng' ∧ ng'.dynStr = .ok [("X", "Y")] := by
  refine ⟨(NetGen.new ["X", "Y"] [2, 2]).install [("X", "Y")],
    { (NetGen.new ["X", "Y"] [2, 2]).install [("X", "Y")] with cims := some [("X", ⟨"X", [], 2, [[]], false, [⟨[], [], [[-2, 2], [2, -2]]⟩]⟩),
      ("Y", ⟨"Y", [2], 2, [[0], [1]], false, [⟨[], [], [[-2, 2], [2, -2]]⟩, ⟨[], [], [[-2, 2], [2, -2]]⟩]⟩)] }, by decide +kernel, by decide +kernel, by decide +kernel⟩

end PyCTBN
