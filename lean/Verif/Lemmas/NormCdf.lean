import Verif.Model.FisherZ

/-! Facts about the standard normal distribution function. -/

namespace Cdmir.Fisher
open ProbabilityTheory MeasureTheory

theorem normCdf_eq (x : ℝ) : normCdf x = (gaussianReal 0 1).real (Set.Iic x) := cdf_eq_real _ _

theorem normCdf_strictMono : StrictMono normCdf := by
  intro a b h
  rw [normCdf_eq, normCdf_eq, ← Set.Iic_union_Ioc_eq_Iic h.le, measureReal_union (Set.Iic_disjoint_Ioc le_rfl) measurableSet_Ioc,
    lt_add_iff_pos_right]
  refine lt_of_le_of_ne measureReal_nonneg fun h0 => ?_
  have h1 : (gaussianReal 0 1) (Set.Ioc a b) = 0 := by
    rw [eq_comm, measureReal_eq_zero_iff] at h0
    exact h0
  have h2 := gaussianReal_absolutelyContinuous' 0 (one_ne_zero (α := NNReal)) h1
  rw [Real.volume_Ioc, ENNReal.ofReal_eq_zero] at h2
  linarith

theorem normCdf_zero : normCdf 0 = 1 / 2 := by
  have h1 : (gaussianReal 0 1).real (Set.Iic 0) = (gaussianReal 0 1).real (Set.Ici 0) := by
    have h := gaussianReal_map_neg (μ := 0) (v := 1)
    rw [neg_zero] at h
    conv_rhs => rw [← h]
    rw [map_measureReal_apply measurable_neg measurableSet_Ici]
    congr 1
    ext x; simp
  have : NullSingletonClass (gaussianReal 0 1) := nullSingletonClass_gaussianReal one_ne_zero
  have h2 : (gaussianReal 0 1).real (Set.Ici 0) = (gaussianReal 0 1).real (Set.Ioi 0) := by
    unfold Measure.real
    rw [measure_congr Ioi_ae_eq_Ici]
  have h3 : (gaussianReal 0 1).real (Set.Iic 0) + (gaussianReal 0 1).real (Set.Ioi 0) = 1 := by
    have hdis : Disjoint (Set.Iic (0 : ℝ)) (Set.Ioi 0) := Set.disjoint_left.2 fun x h h' => not_lt.2 (Set.mem_Iic.1 h) (Set.mem_Ioi.1 h')
    rw [← measureReal_union hdis measurableSet_Ioi, Set.Iic_union_Ioi, probReal_univ]
  rw [normCdf_eq]
  linarith

theorem normCdf_le_one (x : ℝ) : normCdf x ≤ 1 := cdf_le_one _ _

theorem normCdf_lt_one (x : ℝ) : normCdf x < 1 := (normCdf_strictMono (lt_add_one x)).trans_le (normCdf_le_one _)

theorem normCdf_tendsto : Filter.Tendsto normCdf Filter.atTop (nhds 1) := tendsto_cdf_atTop _

end Cdmir.Fisher
