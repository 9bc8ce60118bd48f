import Verif.Lemmas.ChiSquare

/-! # The F distribution: concentration around 1, symmetry -/
namespace PyCTBN
open MeasureTheory ProbabilityTheory Spec Set Filter Topology
open scoped ENNReal

theorem measurable_fRatio (d1 d2 : ℝ) : Measurable (fun p : ℝ × ℝ => (p.1 / d1) / (p.2 / d2)) := by fun_prop

theorem fDist_prob {d1 d2 : ℝ} (h1 : 0 < d1) (h2 : 0 < d2) : IsProbabilityMeasure (fDist d1 d2) := by
  have := chiSquareDist_prob h1
  have := chiSquareDist_prob h2
  exact Measure.isProbabilityMeasure_map (measurable_fRatio d1 d2).aemeasurable

theorem fDist_real {d1 d2 : ℝ} {s : Set ℝ} (hs : MeasurableSet s) :
    (fDist d1 d2).real s = ((chiSquareDist d1).prod (chiSquareDist d2)).real {p | (p.1 / d1) / (p.2 / d2) ∈ s} := by
  rw [fDist, measureReal_def, Measure.map_apply (measurable_fRatio d1 d2) hs]
  rfl

theorem pair_pos {d1 d2 : ℝ} (h1 : 0 < d1) (h2 : 0 < d2) :
    ∀ᵐ p ∂((chiSquareDist d1).prod (chiSquareDist d2)), 0 < p.1 ∧ 0 < p.2 := by
  have := chiSquareDist_prob h1
  have := chiSquareDist_prob h2
  have e1 : ∀ᵐ p ∂((chiSquareDist d1).prod (chiSquareDist d2)), 0 < p.1 :=
    Measure.quasiMeasurePreserving_fst.ae (chiSquareDist_pos d1)
  have e2 : ∀ᵐ p ∂((chiSquareDist d1).prod (chiSquareDist d2)), 0 < p.2 :=
    Measure.quasiMeasurePreserving_snd.ae (chiSquareDist_pos d2)
  filter_upwards [e1, e2] with p h1 h2 using ⟨h1, h2⟩

theorem fDist_Iic_zero {d1 d2 : ℝ} (h1 : 0 < d1) (h2 : 0 < d2) : fDist d1 d2 (Iic 0) = 0 := by
  rw [fDist, Measure.map_apply (measurable_fRatio d1 d2) measurableSet_Iic]
  refine measure_mono_null ?_ (ae_iff.1 (pair_pos h1 h2))
  intro p hp
  rintro ⟨k1, k2⟩
  exact absurd (show (p.1 / d1) / (p.2 / d2) ≤ 0 from hp) (not_le.2 (by positivity))

/-- Unless one of the two variables is far from its mean, the quotient is near 1. -/
theorem fratio_near {x y δ : ℝ} (hδ : 0 < δ) (hδ1 : δ ≤ 1 / 2) (hx : |x - 1| < δ) (hy : |y - 1| < δ) : |x / y - 1| < 4 * δ := by
  rw [abs_lt] at hx hy
  have hy0 : 1 / 2 < y := by linarith
  rw [div_sub_one (by linarith), abs_div, abs_of_pos (by linarith : 0 < y), div_lt_iff₀ (by linarith), abs_lt]
  constructor <;> nlinarith

/-- The F distribution concentrates around 1. -/
theorem fDist_deviation {d1 d2 : ℝ} (h1 : 0 < d1) (h2 : 0 < d2) {δ : ℝ} (hδ : 0 < δ) (hδ1 : δ ≤ 1 / 2) :
    (fDist d1 d2).real {x | 4 * δ ≤ |x - 1|} ≤ 2 / (d1 * δ ^ 2) + 2 / (d2 * δ ^ 2) := by
  have p1 := chiSquareDist_prob h1
  have p2 := chiSquareDist_prob h2
  have hm : ∀ d : ℝ, MeasurableSet {x : ℝ | δ ≤ |x / d - 1|} := fun d => measurableSet_le measurable_const (by fun_prop)
  rw [fDist_real (measurableSet_le measurable_const (by fun_prop))]
  have hsub : {p : ℝ × ℝ | (p.1 / d1) / (p.2 / d2) ∈ {x : ℝ | 4 * δ ≤ |x - 1|}} ⊆
      {x : ℝ | δ ≤ |x / d1 - 1|} ×ˢ univ ∪ univ ×ˢ {x : ℝ | δ ≤ |x / d2 - 1|} := by
    intro p hp
    by_contra hn
    simp only [mem_union, mem_prod, mem_univ, and_true, true_and, mem_ofPred_eq, not_or, not_le] at hn
    exact absurd (show 4 * δ ≤ |p.1 / d1 / (p.2 / d2) - 1| from hp) (not_le.2 (fratio_near hδ hδ1 hn.1 hn.2))
  refine (measureReal_mono hsub).trans ((measureReal_union_le _ _).trans (add_le_add ?_ ?_))
  · rw [measureReal_prod_prod]
    simpa using chiSquareDist_deviation h1 hδ
  · rw [measureReal_prod_prod]
    simpa using chiSquareDist_deviation h2 hδ

/-- With both degrees of freedom large, every quantile is near 1: an explicit bound. -/
theorem quantile_fDist_close {q δ d1 d2 : ℝ} (h0 : 0 < q) (h1 : q < 1) (hδ : 0 < δ) (hδ1 : δ ≤ 1 / 2) (p1 : 0 < d1) (p2 : 0 < d2)
    (k1 : 4 / (min q (1 - q) * δ ^ 2) < d1) (k2 : 4 / (min q (1 - q) * δ ^ 2) < d2) : |quantile (fDist d1 d2) q - 1| ≤ 4 * δ := by
  set κ := min q (1 - q) with hκd
  have hκ : 0 < κ := lt_min h0 (by linarith)
  have := fDist_prob p1 p2
  have hterm : ∀ d : ℝ, 4 / (κ * δ ^ 2) < d → 0 < d → 2 / (d * δ ^ 2) < κ / 2 := by
    intro d hd hd0
    rw [div_lt_iff₀ (by positivity)]
    rw [div_lt_iff₀ (by positivity)] at hd
    nlinarith
  have hdev : (fDist d1 d2).real {x | 4 * δ ≤ |x - 1|} < κ := by
    have := fDist_deviation p1 p2 hδ hδ1
    linarith [hterm d1 k1 p1, hterm d2 k2 p2]
  have hup : quantile (fDist d1 d2) q ≤ 1 + 4 * δ := by
    refine quantile_le h0 ?_
    have hc : (Iic (1 + 4 * δ))ᶜ ⊆ {x : ℝ | 4 * δ ≤ |x - 1|} := by
      intro x hx
      have hx' : 1 + 4 * δ < x := not_le.1 hx
      show 4 * δ ≤ |x - 1|
      exact le_trans (by linarith) (le_abs_self (x - 1))
    have := measureReal_mono (μ := fDist d1 d2) hc
    rw [probReal_compl_eq_one_sub measurableSet_Iic] at this
    linarith [min_le_right q (1 - q)]
  have hlow : 1 - 4 * δ ≤ quantile (fDist d1 d2) q := by
    refine le_quantile h1 (fun y hy => ?_)
    have hc : Iic y ⊆ {x : ℝ | 4 * δ ≤ |x - 1|} := by
      intro x hx
      have hx' : x ≤ y := hx
      show 4 * δ ≤ |x - 1|
      rw [abs_sub_comm]
      exact le_trans (by linarith) (le_abs_self _)
    have := measureReal_mono (μ := fDist d1 d2) hc
    linarith [min_le_left q (1 - q)]
  rw [abs_le]
  constructor <;> linarith

/-- With both degrees of freedom large, every quantile is near 1. -/
theorem quantile_fDist_near {q ε : ℝ} (h0 : 0 < q) (h1 : q < 1) (hε : 0 < ε) :
    ∃ N : ℕ, ∀ d1 d2 : ℝ, (N : ℝ) ≤ d1 → (N : ℝ) ≤ d2 → 0 < d1 → 0 < d2 → |quantile (fDist d1 d2) q - 1| < ε := by
  have hδ : 0 < min (1 / 2) (ε / 8) := by positivity
  have hδ2 := min_le_right (1 / 2) (ε / 8)
  obtain ⟨N, hN⟩ := exists_nat_gt (4 / (min q (1 - q) * min (1 / 2) (ε / 8) ^ 2))
  refine ⟨N, fun d1 d2 k1 k2 p1 p2 => ?_⟩
  have := quantile_fDist_close h0 h1 hδ (min_le_left _ _) p1 p2 (hN.trans_le k1) (hN.trans_le k2)
  linarith

/-- With equal degrees of freedom the F distribution is as likely below as above 1. -/
theorem fDist_median {d : ℝ} (hd : 0 < d) :
    1 / 2 ≤ (fDist d d).real (Iic 1) ∧ ∀ y < 1, (fDist d d).real (Iic y) ≤ 1 / 2 := by
  have hp := chiSquareDist_prob hd
  set μ := (chiSquareDist d).prod (chiSquareDist d) with hμ
  have hm1 : MeasurableSet {p : ℝ × ℝ | p.1 ≤ p.2} := measurableSet_le measurable_fst measurable_snd
  have hm2 : MeasurableSet {p : ℝ × ℝ | p.1 < p.2} := measurableSet_lt measurable_fst measurable_snd
  have hswap : ∀ s : Set (ℝ × ℝ), MeasurableSet s → μ.real (Prod.swap ⁻¹' s) = μ.real s := by
    intro s hs
    rw [measureReal_def, measureReal_def]
    congr 1
    have := (Measure.measurePreserving_swap (μ := chiSquareDist d) (ν := chiSquareDist d)).measure_preimage hs.nullMeasurableSet
    exact this
  have hle : 1 / 2 ≤ μ.real {p | p.1 ≤ p.2} := by
    have h1 := hswap _ hm1
    have hcov : (univ : Set (ℝ × ℝ)) ⊆ {p | p.1 ≤ p.2} ∪ Prod.swap ⁻¹' {p | p.1 ≤ p.2} := fun p _ => le_total p.1 p.2
    have h2 := (measureReal_mono (μ := μ) hcov).trans (measureReal_union_le _ _)
    rw [h1, probReal_univ] at h2
    linarith
  have hlt : μ.real {p | p.1 < p.2} ≤ 1 / 2 := by
    have h1 := hswap _ hm2
    have hdis : Disjoint {p : ℝ × ℝ | p.1 < p.2} (Prod.swap ⁻¹' {p | p.1 < p.2}) := by
      rw [Set.disjoint_left]
      intro p hp hp'
      exact lt_asymm (show p.1 < p.2 from hp) (show p.2 < p.1 from hp')
    have h2 := measureReal_union (μ := μ) hdis (measurable_swap hm2)
    rw [h1] at h2
    have h3 : μ.real ({p : ℝ × ℝ | p.1 < p.2} ∪ Prod.swap ⁻¹' {p | p.1 < p.2}) ≤ 1 := measureReal_le_one
    linarith
  have hae := pair_pos hd hd
  constructor
  · rw [fDist_real measurableSet_Iic]
    refine hle.trans ?_
    rw [measureReal_def, measureReal_def]
    refine ENNReal.toReal_mono (measure_ne_top _ _) (measure_mono_ae ?_)
    filter_upwards [hae] with p ⟨k1, k2⟩ hp
    have hp' : p.1 ≤ p.2 := hp
    show p.1 / d / (p.2 / d) ≤ 1
    rw [div_le_one (by positivity)]
    gcongr
  · intro y hy
    rw [fDist_real measurableSet_Iic]
    refine le_trans ?_ hlt
    rw [measureReal_def, measureReal_def]
    refine ENNReal.toReal_mono (measure_ne_top _ _) (measure_mono_ae ?_)
    filter_upwards [hae] with p ⟨k1, k2⟩ hp
    have hp' : p.1 / d / (p.2 / d) ≤ y := hp
    show p.1 < p.2
    have h4 : p.1 / d / (p.2 / d) < 1 := lt_of_le_of_lt hp' hy
    rw [div_lt_one (by positivity)] at h4
    exact (div_lt_div_iff_of_pos_right hd).1 h4

end PyCTBN
