import Verif.Lemmas.NormCdf
import Mathlib.Probability.CentralLimitTheorem
import Mathlib.MeasureTheory.Measure.Portmanteau

/-! The central limit theorem for two-sided tests. -/

namespace Cdmir.Limit
open MeasureTheory ProbabilityTheory Filter Fisher
open scoped ProbabilityTheory Topology

theorem normCdf_continuous : Continuous normCdf := by
  have : NullSingletonClass (gaussianReal 0 1) := nullSingletonClass_gaussianReal one_ne_zero
  refine continuous_iff_continuousAt.2 fun x => ?_
  have hm : Monotone (cdf (gaussianReal 0 1)) := monotone_cdf _
  refine (hm.continuousAt_iff_leftLim_eq_rightLim (x := x)).2 ?_
  rw [StieltjesFunction.rightLim_eq]
  have h1 := StieltjesFunction.measure_singleton (cdf (gaussianReal 0 1)) x
  rw [measure_cdf, measure_singleton, eq_comm, ENNReal.ofReal_eq_zero] at h1
  exact le_antisymm (hm.leftLim_le le_rfl) (by linarith)

/-- The probability that a standard normal variable is further than `x` from zero. -/
theorem tails {x : ℝ} : gaussianReal 0 1 {y | x < y} = ENNReal.ofReal (1 - normCdf x) := by
  have h : {y : ℝ | x < y} = (Set.Iic x)ᶜ := by ext y; simp
  rw [h, prob_compl_eq_one_sub measurableSet_Iic, ← ofReal_cdf]
  unfold normCdf
  rw [ENNReal.ofReal_sub _ (cdf_nonneg _ _), ENNReal.ofReal_one]

theorem two_tails {x : ℝ} (hx : 0 ≤ x) : gaussianReal 0 1 {y | x < |y|} = ENNReal.ofReal (2 * (1 - normCdf x)) := by
  have h : {y : ℝ | x < |y|} = {y | x < y} ∪ {y | x < -y} := by ext y; simp [lt_abs]
  have hd : Disjoint {y : ℝ | x < y} {y | x < -y} := Set.disjoint_left.2 fun y h1 h2 => by
    simp only [Set.mem_ofPred_eq] at h1 h2
    linarith
  have hs : gaussianReal 0 1 {y | x < -y} = gaussianReal 0 1 {y | x < y} := by
    have h := gaussianReal_map_neg (μ := 0) (v := 1)
    rw [neg_zero] at h
    conv_rhs => rw [← h]
    exact (Measure.map_apply (f := fun y : ℝ => -y) measurable_neg (measurableSet_lt measurable_const measurable_id : MeasurableSet {y : ℝ | x < y})).symm
  rw [h, measure_union hd (measurableSet_lt measurable_const measurable_neg), hs, tails, ← ENNReal.ofReal_add]
  · congr 1; ring
  all_goals have := normCdf_le_one x; linarith

variable {Ω : Type} {mΩ : MeasurableSpace Ω} {P : Measure Ω} [IsProbabilityMeasure P]

/-- The central limit theorem, two-sided. -/
theorem clt {Y : ℕ → Ω → ℝ} (h0 : P[Y 0] = 0) (h1 : P[Y 0 ^ 2] = 1) (hi : iIndepFun Y P) (hd : ∀ s, IdentDistrib (Y s) (Y 0) P P) {x : ℝ} (hx : 0 ≤ x) :
    (∀ N : ℕ, AEMeasurable (fun ω => (√(N : ℝ))⁻¹ * ∑ k ∈ Finset.range N, Y k ω) P) ∧
    Tendsto (fun N : ℕ => P {ω | x < |(√(N : ℝ))⁻¹ * ∑ k ∈ Finset.range N, Y k ω|}) atTop (𝓝 (ENNReal.ofReal (2 * (1 - normCdf x)))) := by
  have : NullSingletonClass (gaussianReal 0 1) := nullSingletonClass_gaussianReal one_ne_zero
  have h := tendstoInDistribution_inv_sqrt_mul_sum (HasLaw.id (μ := gaussianReal 0 1)) h0 h1 hi hd
  refine ⟨h.forall_aemeasurable, ?_⟩
  have hfr : gaussianReal 0 1 (frontier {y : ℝ | x < |y|}) = 0 := by
    refine measure_mono_null (frontier_lt_subset_eq continuous_const continuous_abs) ?_
    refine Set.Finite.measure_zero (Set.Finite.subset (Set.toFinite {x, -x}) fun y hy => ?_) _
    simp only [Set.mem_ofPred_eq] at hy
    rcases abs_choice y with q | q
    · left; rw [hy, q]
    · right; rw [Set.mem_singleton_iff, hy, q, neg_neg]
  have key := ProbabilityMeasure.tendsto_measure_of_null_frontier_of_tendsto' h.tendsto (E := {y : ℝ | x < |y|}) (by simpa [Measure.map_id] using hfr)
  have hE : MeasurableSet {y : ℝ | x < |y|} := measurableSet_lt measurable_const (continuous_abs.measurable)
  simp only [ProbabilityMeasure.coe_mk, Measure.map_id, two_tails hx] at key
  refine key.congr fun N => ?_
  rw [Measure.map_apply_of_aemeasurable (h.forall_aemeasurable N) hE]
  rfl

/-- A test whose decision is, but for small probabilities, that of a sum of independent variables has their limit level. -/
theorem level {S : ℕ → Ω → ℝ} (hS : ∀ N, AEMeasurable (S N) P)
    (hlim : ∀ x, 0 ≤ x → Tendsto (fun N => P {ω | x < |S N ω|}) atTop (𝓝 (ENNReal.ofReal (2 * (1 - normCdf x))))) {c : ℝ} (hc : 0 < c) {A : ℕ → Set Ω}
    (hA : ∀ η > 0, Tendsto (fun N => P {ω | ¬ ((c + η < |S N ω| → ω ∈ A N) ∧ (ω ∈ A N → c - η < |S N ω|))}) atTop (𝓝 0)) :
    Tendsto (fun N => P (A N)) atTop (𝓝 (ENNReal.ofReal (2 * (1 - normCdf c)))) ∧
      Tendsto (fun N => P (A N)ᶜ) atTop (𝓝 (ENNReal.ofReal (1 - 2 * (1 - normCdf c)))) := by
  set G : ℝ → ℝ := fun x => 2 * (1 - normCdf x) with hG
  have hGc : Continuous G := by have := normCdf_continuous; rw [hG]; fun_prop
  have hG0 : ∀ x, 0 ≤ G x := fun x => by have := normCdf_le_one x; rw [hG]; simp only; linarith
  have hG1 : ∀ x, 0 ≤ x → G x ≤ 1 := fun x hx => by
    have := normCdf_strictMono.monotone hx
    rw [normCdf_zero] at this
    rw [hG]; simp only; linarith
  have hEG : Continuous fun x => ENNReal.ofReal (G x) := ENNReal.continuous_ofReal.comp hGc
  have up : ∀ b, ENNReal.ofReal (G c) < b → ∀ᶠ N in atTop, P (A N) < b := by
    intro b hb
    have h1 : ∀ᶠ y in 𝓝 c, ENNReal.ofReal (G y) < b := hEG.continuousAt.eventually (gt_mem_nhds hb)
    obtain ⟨r, hr, hball⟩ := Metric.eventually_nhds_iff.1 h1
    set η := min (r / 2) (c / 2) with hη
    have hη0 : 0 < η := lt_min (by linarith) (by linarith)
    have h2 : ENNReal.ofReal (G (c - η)) < b := hball (by
      rw [Real.dist_eq, show c - η - c = -η by ring, abs_neg, abs_of_pos hη0]
      exact (min_le_left _ _).trans_lt (by linarith))
    have h3 := (hlim (c - η) (by have := min_le_right (r / 2) (c / 2); rw [← hη] at this; linarith)).add (hA η hη0)
    rw [add_zero] at h3
    filter_upwards [h3.eventually (gt_mem_nhds h2)] with N hN
    refine lt_of_le_of_lt ((measure_mono fun ω hω => ?_).trans (measure_union_le _ _)) hN
    by_cases hg : (c + η < |S N ω| → ω ∈ A N) ∧ (ω ∈ A N → c - η < |S N ω|)
    · exact Or.inl (hg.2 hω)
    · exact Or.inr hg
  have upc : ∀ b, ENNReal.ofReal (1 - G c) < b → ∀ᶠ N in atTop, P (A N)ᶜ < b := by
    intro b hb
    have hEG' : Continuous fun x => ENNReal.ofReal (1 - G x) := ENNReal.continuous_ofReal.comp (continuous_const.sub hGc)
    have h1 : ∀ᶠ y in 𝓝 c, ENNReal.ofReal (1 - G y) < b := hEG'.continuousAt.eventually (gt_mem_nhds hb)
    obtain ⟨r, hr, hball⟩ := Metric.eventually_nhds_iff.1 h1
    set η := r / 2 with hη
    have hη0 : 0 < η := by rw [hη]; linarith
    have h2 : ENNReal.ofReal (1 - G (c + η)) < b := hball (by
      rw [Real.dist_eq, show c + η - c = η by ring, abs_of_pos hη0, hη]; linarith)
    have hnull : ∀ N, NullMeasurableSet {ω | c + η < |S N ω|} P := fun N =>
      nullMeasurableSet_lt aemeasurable_const ((continuous_abs.measurable).comp_aemeasurable (hS N))
    have h3 : Tendsto (fun N => P {ω | c + η < |S N ω|}ᶜ) atTop (𝓝 (ENNReal.ofReal (1 - G (c + η)))) := by
      rw [ENNReal.ofReal_sub _ (hG0 _), ENNReal.ofReal_one]
      refine (ENNReal.Tendsto.sub tendsto_const_nhds (hlim (c + η) (by linarith)) (Or.inl ENNReal.one_ne_top)).congr fun N => ?_
      rw [prob_compl_eq_one_sub₀ (hnull N)]
    have h4 := h3.add (hA η hη0)
    rw [add_zero] at h4
    filter_upwards [h4.eventually (gt_mem_nhds h2)] with N hN
    refine lt_of_le_of_lt ((measure_mono fun ω hω => ?_).trans (measure_union_le _ _)) hN
    by_cases hg : (c + η < |S N ω| → ω ∈ A N) ∧ (ω ∈ A N → c - η < |S N ω|)
    · exact Or.inl fun q => hω (hg.1 q)
    · exact Or.inr hg
  have one : ∀ N, 1 ≤ P (A N) + P (A N)ᶜ := fun N => by
    rw [← measure_univ (μ := P), ← Set.union_compl_self (A N)]
    exact measure_union_le _ _
  -- a lower bound from the upper bound of the complement
  have low : ∀ (B C : ℕ → Set Ω) (g : ℝ), 0 ≤ g → g ≤ 1 → (∀ N, 1 ≤ P (B N) + P (C N)) →
      (∀ b, ENNReal.ofReal (1 - g) < b → ∀ᶠ N in atTop, P (C N) < b) → ∀ a, a < ENNReal.ofReal g → ∀ᶠ N in atTop, a < P (B N) := by
    intro B C g hg0 hg1 hBC hC a ha
    have hat : a ≠ ⊤ := ha.ne_top
    have har : a.toReal < g := by
      have := (ENNReal.toReal_lt_toReal hat ENNReal.ofReal_ne_top).2 ha
      rwa [ENNReal.toReal_ofReal hg0] at this
    have han : 0 ≤ a.toReal := ENNReal.toReal_nonneg
    filter_upwards [hC (ENNReal.ofReal (1 - a.toReal)) ((ENNReal.ofReal_lt_ofReal_iff (by linarith)).2 (by linarith))] with N hN
    by_contra hle
    rw [not_lt] at hle
    have h1 : P (B N) + P (C N) < ENNReal.ofReal a.toReal + ENNReal.ofReal (1 - a.toReal) := by
      rw [ENNReal.ofReal_toReal hat]
      exact ENNReal.add_lt_add_of_le_of_lt (measure_ne_top _ _) hle hN
    rw [← ENNReal.ofReal_add han (by linarith), add_sub_cancel, ENNReal.ofReal_one] at h1
    exact absurd (hBC N) (not_le.2 h1)
  refine ⟨tendsto_order.2 ⟨low A (fun N => (A N)ᶜ) (G c) (hG0 c) (hG1 c hc.le) one upc, up⟩, tendsto_order.2 ⟨?_, upc⟩⟩
  refine low (fun N => (A N)ᶜ) A (1 - G c) (by have := hG1 c hc.le; linarith) (by have := hG0 c; linarith) (fun N => by rw [add_comm]; exact one N) ?_
  intro b hb
  exact up b (by rwa [sub_sub_cancel] at hb)

end Cdmir.Limit
