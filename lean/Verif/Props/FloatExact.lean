import Verif.Props.Float
import Mathlib.Algebra.Order.Ring.Pow

/-! # C157-C160, continued: size of the error, signs, exact cases, order of rows -/

namespace PyCTBN
open Spec

/-- `Near u m` as a relative error: at most `m·u / (1 - m·u)`. -/
theorem near_relative_error {u : ℚ} (h0 : 0 ≤ u) (h1 : u < 1) {m : Nat} {x y : ℚ} (h : Near u m x y) (hm : (m : ℚ) * u < 1) :
    |x - y| ≤ (m * u) / (1 - m * u) * |y| := by
  obtain ⟨θ, a, b, rfl⟩ := h
  have hb : 1 - m * u ≤ (1 - u) ^ m := by
    have := one_add_mul_le_pow (a := -u) (by linarith) m
    have e : (1 + -u : ℚ) = 1 - u := by ring
    rw [e] at this
    linarith
  have hp : 0 < 1 - (m : ℚ) * u := by linarith
  have hup : θ ≤ (1 - m * u)⁻¹ := b.trans (inv_anti₀ hp hb)
  have hlo : 1 - m * u ≤ θ := hb.trans a
  rw [show θ * y - y = (θ - 1) * y by ring, abs_mul]
  refine mul_le_mul_of_nonneg_right ?_ (abs_nonneg _)
  have hmu : 0 ≤ (m : ℚ) * u := by positivity
  rw [abs_le]
  constructor
  · have : (m : ℚ) * u ≤ m * u / (1 - m * u) := by
      rw [le_div_iff₀ hp]; nlinarith
    linarith
  · have : (1 - (m : ℚ) * u)⁻¹ - 1 = m * u / (1 - m * u) := by field_simp; ring
    linarith

theorem forall₂_getElem? {α β : Type _} {R : α → β → Prop} {l : List α} {l' : List β} (h : List.Forall₂ R l l') (i : Nat) {b : β} (hb : l'[i]? = some b) :
    ∃ a, l[i]? = some a ∧ R a b := by
  induction h generalizing i with
  | nil => simp at hb
  | cons h _ ih =>
    cases i with
    | zero => simp at hb; subst hb; exact ⟨_, by simp, h⟩
    | succ i => simpa using ih i (by simpa using hb)

/-- **C157**, in `float64`: the residence times computed from time stamps.  With `m` rows, `m + 1 < 2⁵³`, the computed residence time of every state in every CIM differs from the
exact one by a relative error of at most `(m + 1)·2⁻⁵³ / (1 - (m + 1)·2⁻⁵³)`. -/
theorem float64_residence_times (s : Structure) (g : NetworkGraph) (hg : Reach s g) (hpos : PosCards s) (n : Label)
    (hn : n ∈ s.labels) (c : Nat) (hcn : s.getStatesNumber n = .ok c) (ps : List Nat)
    (hps : ps.map Except.ok = (parentsOf g n).map s.getStatesNumber) (t : Trajectory) (ht : DataOK s t) (htime : ∀ d ∈ t.times, 0 ≤ d)
    (hN : c * c * (c + topParentSlot ps) ≤ 2 ^ 53) (hrows : t.rows.length + 1 < 2 ^ 53) (a : SetOfCims) (ha : ParamsEst.estimate t g n = .ok a) :
    ∃ b, ParamsEst.estimateF (binRound 53) (t.roundTimes (binRound 53)) g n = .ok b ∧ b.pCombs = a.pCombs ∧ b.cims.length = a.cims.length ∧
      ∀ (r : Nat) ca, a.cims[r]? = some ca → ∃ cb, b.cims[r]? = some cb ∧ cb.trans = ca.trans ∧
        ∀ (x : Nat) T, ca.resTimes[x]? = some T → ∃ T', cb.resTimes[x]? = some T' ∧
          |T' - T| ≤ ((t.rows.length + 1 : Nat) * (1 / 2 ^ 53)) / (1 - (t.rows.length + 1 : Nat) * (1 / 2 ^ 53)) * |T| := by
  have h0 : (0 : ℚ) ≤ 1 / 2 ^ 53 := by norm_num
  have h1 : (1 : ℚ) / 2 ^ 53 < 1 := by norm_num
  have hacc := binRound_accurate 53
  have hk : List.Forall₂ (Near (1 / 2 ^ 53) 1) (t.times.map (binRound 53)) t.times := by
    rw [List.forall₂_map_left_iff, List.forall₂_same]
    exact fun x _ => near_rnd h0 h1 hacc x
  rcases float_estimation_near s g hg hpos n hn c hcn ps hps t ht htime (binRound 53) _ h0 h1 hacc (2 ^ 53) (binRound_exactInts 53 (by norm_num))
    hN (by omega) 1 _ hk with ⟨e, h, -⟩ | ⟨a', b, h, hb, hp, hc⟩
  · rw [ha] at h; cases h
  · rw [ha] at h; cases h
    refine ⟨b, hb, hp, hc.length_eq, ?_⟩
    intro r ca hr
    obtain ⟨cb, hcb, hn⟩ := forall₂_getElem? hc r hr
    refine ⟨cb, hcb, hn.counts, ?_⟩
    intro x T hT
    obtain ⟨T', hT', hn'⟩ := forall₂_getElem? hn.times x hT
    refine ⟨T', hT', ?_⟩
    have hlt : ((t.rows.length + 1 : Nat) : ℚ) * (1 / 2 ^ 53) < 1 := by
      have : ((t.rows.length + 1 : Nat) : ℚ) < ((2 ^ 53 : Nat) : ℚ) := by exact_mod_cast hrows
      push_cast at this ⊢
      rw [mul_one_div, div_lt_one (by norm_num)]
      exact this
    rw [Nat.add_comm] at hn'
    exact near_relative_error h0 h1 hn' hlt

/-- **C158.**  Signs survive rounding: a computed residence time is 0 exactly when the state was never occupied for a positive time, and a computed coefficient is positive, zero or negative exactly when
the exact one is. -/
theorem float_signs (s : Structure) (g : NetworkGraph) (hg : Reach s g) (hpos : PosCards s) (n : Label)
    (hn : n ∈ s.labels) (c : Nat) (hcn : s.getStatesNumber n = .ok c) (ps : List Nat)
    (hps : ps.map Except.ok = (parentsOf g n).map s.getStatesNumber) (t : Trajectory) (ht : DataOK s t) (htime : ∀ d ∈ t.times, 0 ≤ d)
    (rnd : ℚ → ℚ) (u : ℚ) (h0 : 0 ≤ u) (h1 : u < 1) (hacc : Accurate u rnd) (N : Nat) (hex : ExactInts N rnd)
    (hN : c * c * (c + topParentSlot ps) ≤ N) (hrows : t.rows.length < N) (a b : SetOfCims) (ha : ParamsEst.estimate t g n = .ok a)
    (hb : ParamsEst.estimateF rnd (t.roundTimes rnd) g n = .ok b) (r : Nat) (ca cb : Cim) (hca : a.cims[r]? = some ca) (hcb : b.cims[r]? = some cb) :
    (∀ T T' : ℚ, ∀ i : Nat, ca.resTimes[i]? = some T → cb.resTimes[i]? = some T' → (T' = 0 ↔ T = 0) ∧ (0 < T' ↔ 0 < T)) ∧
    ∀ x y q q', entry2 ca.cim x y = some q → entry2 cb.cim x y = some q' → (q' = 0 ↔ q = 0) ∧ (0 < q' ↔ 0 < q) ∧ (q' < 0 ↔ q < 0) := by
  have hk : List.Forall₂ (Near u 1) (t.times.map rnd) t.times := by
    rw [List.forall₂_map_left_iff, List.forall₂_same]
    exact fun x _ => near_rnd h0 h1 hacc x
  rcases float_estimation_near s g hg hpos n hn c hcn ps hps t ht htime rnd u h0 h1 hacc N hex hN hrows 1 _ hk with ⟨e, h, -⟩ | ⟨a', b', h, hb', hp, hc⟩
  · rw [ha] at h; cases h
  · rw [ha] at h; cases h
    have hb'' : ParamsEst.estimateF rnd (t.roundTimes rnd) g n = .ok b' := hb'
    rw [hb] at hb''; cases hb''
    obtain ⟨cb', hcb', hn⟩ := forall₂_getElem? hc r hca
    rw [hcb] at hcb'; cases hcb'
    constructor
    · intro T T' i hT hT'
      obtain ⟨T'', hT'', hn'⟩ := forall₂_getElem? hn.times i hT
      rw [hT'] at hT''; cases hT''
      have := near_sign h0 h1 hn'
      exact ⟨this.1, this.2.1⟩
    · intro x y q q' hq hq'
      unfold entry2 at hq hq'
      cases hrow : ca.cim[x]? with
      | none => rw [hrow] at hq; cases hq
      | some row =>
        obtain ⟨row', hrow', hn'⟩ := forall₂_getElem? hn.coeffs x hrow
        rw [hrow] at hq
        rw [hrow'] at hq'
        simp only [Option.bind_some] at hq hq'
        obtain ⟨q'', hq'', hn''⟩ := forall₂_getElem? hn' y hq
        rw [hq'] at hq''; cases hq''
        exact near_sign h0 h1 hn''

/-! ## Exact cases -/

theorem coeffs_rounded {rnd : ℚ → ℚ} {N : Nat} (hex : ExactInts N rnd) {T : List ℚ} (hT : ∀ x ∈ T, rnd (x + 1) = x + 1) (hone : rnd 1 = 1)
    {M : List (List Nat)} (hM : ∀ row ∈ M, ∀ e ∈ row, e < N) :
    cimCoefficientsF rnd T M = (cimCoefficients T M).map (List.map rnd) := by
  unfold cimCoefficientsF cimCoefficients
  rw [List.map_map]
  apply List.map_congr_left
  rintro ⟨row, i⟩ hri
  simp only [Function.comp]
  rw [List.map_map]
  apply List.map_congr_left
  rintro ⟨e, j⟩ hej
  simp only [Function.comp]
  have hrow := (List.mem_zipIdx hri).2.2
  have he := (List.mem_zipIdx hej).2.2
  have heN : e < N := by
    apply hM row
    · rw [hrow]; exact List.getElem_mem _
    · rw [he]; exact List.getElem_mem _
  have e1 : rnd (e : ℚ) = e := by
    have := hex (e : ℤ) (by simpa using heN.le)
    simpa using this
  have e2 : rnd (-(e : ℚ)) = -e := by
    have := hex (-(e : ℤ)) (by simpa using heN.le)
    push_cast at this; simpa using this
  have e3 : rnd ((if i = j then -(e : ℚ) else (e : ℚ)) + 1) = (if i = j then -(e : ℚ) else (e : ℚ)) + 1 := by
    split
    · have := hex (-(e : ℤ) + 1) (by omega)
      push_cast at this; simpa using this
    · have := hex ((e : ℤ) + 1) (by omega)
      push_cast at this; simpa using this
  have e4 : rnd ((T[i]?.getD 0) + 1) = (T[i]?.getD 0) + 1 := by
    cases hx : T[i]? with
    | none => simpa using hone
    | some x => exact hT x (List.mem_of_getElem? hx)
  rw [e1, e2, e3, e4]

/-- **C159.**  If all durations are multiples `nᵢ·d` of a unit `d` of which 1 is also a multiple (`1 = w·d`), the rounding is exact on the multiples of `d` up to `N·d`, and the total duration plus one is at most `N·d`, then
floating-point estimation raises what exact estimation raises, and otherwise delivers exactly the same assignments, residence times and counts, and the correctly rounded coefficients. -/
theorem float_exact_on_grid (s : Structure) (g : NetworkGraph) (hg : Reach s g) (hpos : PosCards s) (n : Label)
    (hn : n ∈ s.labels) (c : Nat) (hcn : s.getStatesNumber n = .ok c) (ps : List Nat)
    (hps : ps.map Except.ok = (parentsOf g n).map s.getStatesNumber) (t : Trajectory) (ht : DataOK s t)
    (rnd : ℚ → ℚ) (N : Nat) (hex : ExactInts N rnd) (d : ℚ) (hd : ∀ z : Nat, z ≤ N → rnd (z * d) = z * d) (w : Nat) (hw : (w : ℚ) * d = 1)
    (ns : List Nat) (hns : t.times = ns.map (fun k : Nat => (k : ℚ) * d)) (htot : ns.sum + w ≤ N)
    (hN : c * c * (c + topParentSlot ps) ≤ N) (hrows : t.rows.length < N) :
    ParamsEst.estimateF rnd t g n
      = (ParamsEst.estimate t g n).map (fun a => { a with cims := a.cims.map (fun m => { m with cim := m.cim.map (List.map rnd) }) }) := by
  have := estimate_from_bins hex hg hpos hn hcn hps hN (fun k : Nat => (k : ℚ) * d) (fun k : Nat => (k : ℚ) * d) ns t ht hns.symm
  have ht' : ({ t with times := ns.map (fun k : Nat => (k : ℚ) * d) } : Trajectory) = t := by rw [← hns]
  rw [ht'] at this
  rcases this with ⟨e, a, b⟩ | ⟨B, M, hB, hM, a, b⟩
  · rw [a, b]; rfl
  · rw [a, b]
    simp only [Except.map, Except.ok.injEq, SetOfCims.mk.injEq, true_and]
    have hle : ∀ r ∈ B, ∀ l ∈ r, l.sum ≤ ns.sum := fun r hr l hl => (hB r hr l hl).sum_le_sum (fun _ _ => Nat.zero_le _)
    have hsum : ∀ l : List Nat, (l.map (fun k : Nat => (k : ℚ) * d)).sum = (l.sum : ℚ) * d := by
      intro l
      induction l with
      | nil => simp
      | cons x l ih => simp only [List.map_cons, List.sum_cons, ih]; push_cast; ring
    have hTB : B.map (List.map (fun l => fsum rnd (l.map (fun k : Nat => (k : ℚ) * d)))) = B.map (List.map (fun l => (l.map (fun k : Nat => (k : ℚ) * d)).sum)) := by
      apply List.map_congr_left
      intro r hr
      apply List.map_congr_left
      intro l hl
      rw [fsum_exact hd l (by have := hle r hr l hl; omega), hsum]
    rw [hTB]
    have hone : rnd 1 = 1 := by rw [← hw]; exact hd w (by omega)
    have hrow : ∀ T ∈ B.map (List.map (fun l => (l.map (fun k : Nat => (k : ℚ) * d)).sum)), ∀ x ∈ T, rnd (x + 1) = x + 1 := by
      intro T hT x hx
      obtain ⟨r, hr, rfl⟩ := List.mem_map.1 hT
      obtain ⟨l, hl, rfl⟩ := List.mem_map.1 hx
      have h1 := hle r hr l hl
      have h2 := hd (l.sum + w) (by omega)
      have e : ((l.sum + w : Nat) : ℚ) * d = (l.map (fun k : Nat => (k : ℚ) * d)).sum + 1 := by
        rw [hsum]; push_cast; rw [add_mul, hw]
      rw [e] at h2
      exact h2
    have hMN : ∀ m ∈ M, ∀ row ∈ m, ∀ e ∈ row, e < N := fun m hm row hrow e he => (hM m hm row hrow e he).trans_lt hrows
    generalize B.map (List.map (fun l => (l.map (fun k : Nat => (k : ℚ) * d)).sum)) = Ts at hrow
    clear hM a b
    induction Ts generalizing M with
    | nil => simp
    | cons T Ts ih =>
      cases M with
      | nil => simp
      | cons m M =>
        simp only [List.zipWith_cons_cons, List.map_cons, List.cons.injEq]
        refine ⟨?_, ih M (fun m' hm' => hMN m' (by simp [hm'])) (fun T' hT' => hrow T' (by simp [hT']))⟩
        simp only [Cim.buildF, Cim.build, Cim.mk.injEq, true_and]
        exact coeffs_rounded hex (hrow T (by simp)) hone (hMN m (by simp))

/-- **C159** in `float64`: durations that are multiples of `2⁻ᵏ` with a total of at most `2⁵³⁻ᵏ - 1`. -/
theorem float64_exact (s : Structure) (g : NetworkGraph) (hg : Reach s g) (hpos : PosCards s) (n : Label)
    (hn : n ∈ s.labels) (c : Nat) (hcn : s.getStatesNumber n = .ok c) (ps : List Nat)
    (hps : ps.map Except.ok = (parentsOf g n).map s.getStatesNumber) (t : Trajectory) (ht : DataOK s t)
    (k : Nat) (ns : List Nat) (hns : t.times = ns.map (fun m : Nat => (m : ℚ) / 2 ^ k)) (htot : ns.sum + 2 ^ k ≤ 2 ^ 53)
    (hN : c * c * (c + topParentSlot ps) ≤ 2 ^ 53) (hrows : t.rows.length < 2 ^ 53) :
    ParamsEst.estimateF (binRound 53) t g n = (ParamsEst.estimate t g n).map
      (fun a => { a with cims := a.cims.map (fun m => { m with cim := m.cim.map (List.map (binRound 53)) }) }) := by
  refine float_exact_on_grid s g hg hpos n hn c hcn ps hps t ht (binRound 53) (2 ^ 53) (binRound_exactInts 53 (by norm_num)) (1 / 2 ^ k) ?_ (2 ^ k) ?_ ns ?_ htot hN hrows
  · intro z hz
    have := binRound_exact 53 (by norm_num) (z : ℤ) (-(k : ℤ)) (by simpa using hz)
    rw [zpow_neg, zpow_natCast] at this
    simpa using this
  · push_cast; field_simp
  · rw [hns]
    apply List.map_congr_left
    intro m _
    rw [mul_one_div]

/-! ## Order of rows -/

/-- **C160**, true part: reordering the rows changes a computed residence time by at most `2·(k + m)` relative errors, a coefficient by at most `2·(k + m + 2)`. -/
theorem float_order_partial (s : Structure) (g : NetworkGraph) (hg : Reach s g) (hpos : PosCards s) (n : Label)
    (hn : n ∈ s.labels) (c : Nat) (hcn : s.getStatesNumber n = .ok c) (ps : List Nat)
    (hps : ps.map Except.ok = (parentsOf g n).map s.getStatesNumber) (t t' : Trajectory) (ht : DataOK s t) (ht' : DataOK s t')
    (hperm : (t.times.zip t.rows).Perm (t'.times.zip t'.rows)) (htime : ∀ d ∈ t.times, 0 ≤ d)
    (rnd : ℚ → ℚ) (u : ℚ) (h0 : 0 ≤ u) (h1 : u < 1) (hacc : Accurate u rnd) (N : Nat) (hex : ExactInts N rnd)
    (hN : c * c * (c + topParentSlot ps) ≤ N) (hrows : t.rows.length < N) (a b : SetOfCims)
    (ha : ParamsEst.estimateF rnd t g n = .ok a) (hb : ParamsEst.estimateF rnd t' g n = .ok b) (r : Nat) (ca cb : Cim)
    (hca : a.cims[r]? = some ca) (hcb : b.cims[r]? = some cb) :
    ca.trans = cb.trans ∧
    ∀ (x : Nat) (T T' : ℚ), ca.resTimes[x]? = some T → cb.resTimes[x]? = some T' → Near u (2 * t.rows.length) T T' := by
  have hrp : t.rows.Perm t'.rows := by
    have := hperm.map Prod.snd
    rwa [List.map_snd_zip (by have := ht.len; omega), List.map_snd_zip (by have := ht'.len; omega)] at this
  have htp : t.times.Perm t'.times := by
    have := hperm.map Prod.fst
    rwa [List.map_fst_zip (by have := ht.len; omega), List.map_fst_zip (by have := ht'.len; omega)] at this
  have hlen := hrp.length_eq
  have hself : ∀ l : List ℚ, List.Forall₂ (Near u 0) l l := fun l => List.forall₂_same.2 (fun x _ => near_refl x)
  rcases float_estimation_near s g hg hpos n hn c hcn ps hps t ht htime rnd u h0 h1 hacc N hex hN hrows 0 _ (hself _) with ⟨e, -, h⟩ | ⟨a', b', ha', hb', -, hc⟩
  · have h' : ParamsEst.estimateF rnd t g n = .error e := h
    rw [ha] at h'; cases h'
  rcases float_estimation_near s g hg hpos n hn c hcn ps hps t' ht' (fun d hd => htime d (htp.mem_iff.2 hd)) rnd u h0 h1 hacc N hex hN (by omega) 0 _ (hself _)
    with ⟨e, -, h⟩ | ⟨a'', b'', ha'', hb'', -, hc'⟩
  · have h' : ParamsEst.estimateF rnd t' g n = .error e := h
    rw [hb] at h'; cases h'
  have e1 : ParamsEst.estimateF rnd t g n = .ok b' := hb'
  have e2 : ParamsEst.estimateF rnd t' g n = .ok b'' := hb''
  rw [ha] at e1; cases e1
  rw [hb] at e2; cases e2
  have e3 := (estimation_order_independent s g hg hpos n hn t t' (ht.origCols.trans ht'.origCols.symm) ht.len ht'.len hperm a').1 ha'
  rw [ha''] at e3; cases e3
  have hca' : ∃ ce, a'.cims[r]? = some ce := by
    have hl := hc.length_eq
    have : r < a.cims.length := (List.getElem?_eq_some_iff.1 hca).1
    exact ⟨_, List.getElem?_eq_getElem (by omega)⟩
  obtain ⟨ce, hce⟩ := hca'
  obtain ⟨ca', q1, n1⟩ := forall₂_getElem? hc r hce
  rw [hca] at q1; cases q1
  obtain ⟨cb', q2, n2⟩ := forall₂_getElem? hc' r hce
  rw [hcb] at q2; cases q2
  refine ⟨n1.counts.trans n2.counts.symm, ?_⟩
  intro x T T' hT hT'
  have hl := n1.times.length_eq
  have hx : x < ca.resTimes.length := (List.getElem?_eq_some_iff.1 hT).1
  obtain ⟨Te, hTe⟩ : ∃ Te, ce.resTimes[x]? = some Te := ⟨_, List.getElem?_eq_getElem (by omega)⟩
  obtain ⟨T1, p1, m1⟩ := forall₂_getElem? n1.times x hTe
  rw [hT] at p1; cases p1
  obtain ⟨T2, p2, m2⟩ := forall₂_getElem? n2.times x hTe
  rw [hT'] at p2; cases p2
  have := near_trans h0 h1 m1 (near_symm h0 h1 m2)
  rwa [← hlen, Nat.zero_add, ← Nat.two_mul] at this

/-- `2⁵³ + 1` is not a `float64`: it is rounded to `2⁵³`. -/
theorem binRound_absorbs : binRound 53 (2 ^ 53 + 1) = 2 ^ 53 := by
  have hlog : Int.log 2 |(2 ^ 53 + 1 : ℚ)| = 53 := by
    rw [abs_of_pos (by norm_num), show (2 ^ 53 + 1 : ℚ) = ((2 ^ 53 + 1 : Nat) : ℚ) by norm_num, Int.log_natCast]
    rw [Nat.log_eq_of_pow_le_of_lt_pow (b := 2) (m := 53) (by norm_num) (by norm_num)]
    rfl
  unfold binRound
  rw [hlog]
  have hr : rint ((2 ^ 53 + 1 : ℚ) / 2 ^ ((53 : ℤ) - (53 : Nat) + 1)) = 2 ^ 52 := by
    have : (2 ^ 53 + 1 : ℚ) / 2 ^ ((53 : ℤ) - (53 : Nat) + 1) = 2 ^ 52 + 1 / 2 := by norm_num
    rw [this]
    have hf : ⌊(2 ^ 52 + 1 / 2 : ℚ)⌋ = 2 ^ 52 := by rw [Int.floor_eq_iff]; norm_num
    unfold rint
    rw [hf]
    norm_num
  dsimp only
  rw [hr]
  norm_num

/-- One variable with two states, always in state 0. -/
def ordS : Structure := ⟨["X"], [0], [2], [], 1⟩

/-- **C160 is refuted** in `float64`: the same three rows in another order give another residence time. -/
theorem float_order_refuted :
    (∃ (T T' : ℚ) (a b : SetOfCims),
      ParamsEst.estimateF (binRound 53) ⟨[2 ^ 53, 1, 1], [[0, -1], [0, -1], [0, -1]], 2⟩ (NetworkGraph.new ordS) "X" = .ok a ∧
      ParamsEst.estimateF (binRound 53) ⟨[1, 1, 2 ^ 53], [[0, -1], [0, -1], [0, -1]], 2⟩ (NetworkGraph.new ordS) "X" = .ok b ∧
      (a.cims[0]?.bind (fun m => m.resTimes[0]?)) = some T ∧ (b.cims[0]?.bind (fun m => m.resTimes[0]?)) = some T' ∧ T = 2 ^ 53 ∧ T' = 2 ^ 53 + 2) := by
  have hg : Reach ordS (NetworkGraph.new ordS) := .new ⟨⟨by decide, rfl, rfl⟩, by decide⟩
  have hex := binRound_exactInts 53 (by norm_num)
  obtain ⟨c, i, ps, is, d1, d2, d3, d4, d5⟩ := estimateF_unfold hg (n := "X") (by decide)
  have hc : c = 2 := by
    have : ordS.getStatesNumber "X" = .ok 2 := rfl
    rw [this] at d1; cases d1; rfl
  have hi : i = 0 := by
    have : ordS.getNodeIndx "X" = .ok 0 := rfl
    rw [this] at d2; cases d2; rfl
  have hpar : parentsOf (NetworkGraph.new ordS) "X" = [] := by decide +kernel
  rw [hpar] at d3 d4
  have hps : ps = [] := List.map_eq_nil_iff.1 d3
  have his : is = [] := List.map_eq_nil_iff.1 d4
  subst hc; subst hi; subst hps; subst his
  have hw : WFStructure ordS := ⟨by decide, rfl, rfl⟩
  have hok : ∀ ts : List ℚ, ts.length = 3 → DataOK ordS ⟨ts, [[0, -1], [0, -1], [0, -1]], 2⟩ := by
    intro ts hts
    refine ⟨rfl, hts, ?_, by decide, ?_, ?_⟩
    · intro r hr
      simp only [List.mem_cons, List.not_mem_nil, or_false, or_self] at hr
      subst hr
      rfl
    · intro r hr l hl v hv
      simp only [List.mem_cons, List.not_mem_nil, or_false, or_self] at hr
      subst hr
      rw [show l = "X" from by simpa [ordS] using hl] at hv ⊢
      have : ordS.getStatesNumber "X" = .ok 2 := rfl
      rw [this] at hv; cases hv
      exact ⟨0, by decide +kernel, by norm_num⟩
    · intro r hr l hl v hv
      simp only [List.mem_cons, List.not_mem_nil, or_false, or_self] at hr
      subst hr
      rw [show l = "X" from by simpa [ordS] using hl]
      exact .inl (by decide +kernel)
  have key : ∀ w1 w2 w3 : ℚ, ∃ a, ParamsEst.estimateF (binRound 53) ⟨[w1, w2, w3], [[0, -1], [0, -1], [0, -1]], 2⟩ (NetworkGraph.new ordS) "X" = .ok a ∧
      (a.cims[0]?.bind (fun m => m.resTimes[0]?)) = some (fsum (binRound 53) [w1, w2, w3]) := by
    intro w1 w2 w3
    have hok' := hok [w1, w2, w3] rfl
    have hidx := time_indexes_exact hex hw hok' (n := "X") (by decide) (ls := []) (by simp) (c := 2) (by norm_num) rfl d2 (ps := []) (is := []) rfl rfl (by decide)
    have htr := transitionsF_eq hex hw hok' (n := "X") (by decide) (ls := []) (by simp) (c := 2) (by norm_num) rfl d2 (ps := []) (is := []) rfl rfl (by decide) 1 2
    have hbins : timeBins [0, 1, 2] [[0], [0], [0]] [0] (buildTimeScalarIndexing 2 []) 1 2 = .ok [[[0, 1, 2], []]] := by decide +kernel
    have hM : computeStateTransitions 0 [[0, -1], [0, -1], [0, -1]] [0 + 1, 0] (buildTransitionScalarIndexing 2 []) 1 2 = .ok [[[0, 0], [0, 0]]] := by
      decide +kernel
    have hT := resTimeF_bins (binRound 53) (fun k : Nat => [w1, w2, w3].getD k 0) [0, 1, 2] [[0], [0], [0]] [0] (buildTimeScalarIndexing 2 []) 1 2 hidx
    rw [hbins] at hT
    refine ⟨⟨"X", [], 2, buildPCombs [], false, List.zipWith (Cim.buildF (binRound 53)) [[fsum (binRound 53) [w1, w2, w3], fsum (binRound 53) []]] [[[0, 0], [0, 0]]]⟩, ?_, ?_⟩
    · rw [d5]
      have hT' : computeStateResTimeF (binRound 53) [w1, w2, w3] [[0], [0], [0]] [0] (buildTimeScalarIndexing 2 []) 1 2
          = .ok [[fsum (binRound 53) [w1, w2, w3], fsum (binRound 53) []]] := hT
      show (computeStateResTimeF (binRound 53) [w1, w2, w3] [[0], [0], [0]] [0] (buildTimeScalarIndexing 2 []) 1 2 >>= _) = _
      rw [hT', Except.bind_ok']
      show (computeStateTransitionsF (binRound 53) 0 [[0, -1], [0, -1], [0, -1]] [0 + 1, 0] (buildTransitionScalarIndexing 2 []) 1 2 >>= _) = _
      have htr' : computeStateTransitionsF (binRound 53) 0 [[0, -1], [0, -1], [0, -1]] [0 + 1, 0] (buildTransitionScalarIndexing 2 []) 1 2
          = .ok [[[0, 0], [0, 0]]] := htr.trans hM
      rw [htr', Except.bind_ok']
    · rfl
  have e1 : binRound 53 (0 + 2 ^ 53) = 2 ^ 53 := by
    have := binRound_exact 53 (by norm_num) 1 53 (by norm_num)
    rw [Int.cast_one, one_mul, show ((2 : ℚ) ^ (53 : ℤ)) = 2 ^ 53 from rfl] at this
    rw [zero_add]; exact this
  have e2 : binRound 53 (0 + 1) = 1 := by
    have := hex 1 (by norm_num)
    simpa using this
  have e3 : binRound 53 (1 + 1) = 2 := by
    have := hex 2 (by norm_num)
    push_cast at this; rw [show (1 + 1 : ℚ) = 2 by norm_num]; exact this
  have e4 : binRound 53 (2 + 2 ^ 53) = 2 ^ 53 + 2 := by
    have := binRound_exact 53 (by norm_num) (2 ^ 52 + 1) 1 (by norm_num)
    rw [show (((2 ^ 52 + 1 : ℤ) : ℚ) * 2 ^ (1 : ℤ)) = 2 ^ 53 + 2 by norm_num] at this
    rw [show (2 + 2 ^ 53 : ℚ) = 2 ^ 53 + 2 by norm_num]; exact this
  obtain ⟨a, ha, qa⟩ := key (2 ^ 53) 1 1
  obtain ⟨b, hb, qb⟩ := key 1 1 (2 ^ 53)
  refine ⟨_, _, a, b, ha, hb, qa, qb, ?_, ?_⟩
  · simp only [fsum, List.foldl_cons, List.foldl_nil, e1, binRound_absorbs]
  · simp only [fsum, List.foldl_cons, List.foldl_nil, e2, e3, e4]

/-- The hypotheses are met: the data set of C17 in `float64`, with durations 1, 2, 3, 4 (and, for the second example, with half of these). -/
example : ParamsEst.estimateF (binRound 53) exT2 (NetworkGraph.new exS2) "X" = (ParamsEst.estimate exT2 (NetworkGraph.new exS2) "X").map
    (fun a => { a with cims := a.cims.map (fun m => { m with cim := m.cim.map (List.map (binRound 53)) }) }) :=
  float64_exact exS2 _ exG2_reach (by unfold PosCards; decide) "X" (by decide) 2 rfl [2] rfl exT2 exT2_ok 0 [1, 2, 3, 4] (by decide +kernel) (by norm_num)
    (by decide) (by decide)

example : ∃ b, ParamsEst.estimateF (binRound 53) (exT2.roundTimes (binRound 53)) (NetworkGraph.new exS2) "X" = .ok b ∧ b.cims.length = 2 := by
  obtain ⟨a, ha⟩ := (estimation_never_raises_iff exS2 _ exG2_reach (by unfold PosCards; decide) ⟨by decide, by decide⟩ "X" (by decide) 2 rfl
    [2] rfl).2 (by decide) exT2 exT2_ok
  obtain ⟨b, hb, -, h, -⟩ := float64_residence_times exS2 _ exG2_reach (by unfold PosCards; decide) "X" (by decide) 2 rfl [2] rfl exT2 exT2_ok (by decide +kernel)
    (by decide) (by decide) a ha
  exact ⟨b, hb, h.trans (estimation_general exS2 _ exG2_reach (by unfold PosCards; decide) "X" (by decide) 2 rfl [2] rfl exT2 exT2_ok a ha).1⟩

/-- A million rows: the relative error is below `2·10⁻¹⁰`. -/
example : ((10 ^ 6 + 1 : Nat) * (1 / 2 ^ 53)) / (1 - (10 ^ 6 + 1 : Nat) * (1 / 2 ^ 53)) < (2 : ℚ) / 10 ^ 10 := by norm_num

end PyCTBN
