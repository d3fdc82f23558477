import Verif.Props.KernelZero
import Mathlib.Probability.StrongLaw
import Mathlib.Probability.Independence.CharacteristicFunction
import Mathlib.Probability.Independence.Integration
import Mathlib.Probability.Distributions.Gaussian.Real
import Mathlib.MeasureTheory.Integral.Pi
import Mathlib.MeasureTheory.Constructions.Polish.Basic

/-! The statistic of two Gaussian kernels as an integral of characteristic functions, and its limit for independent records. Used for C178. -/

namespace Cdmir.KTest
open BigOperators MeasureTheory ProbabilityTheory Filter Complex
open scoped Topology ComplexConjugate

variable {n d e : Nat}

/-- The normal distribution of frequencies. -/
noncomputable def freq (d : Nat) : Measure (Fin d → ℝ) := Measure.pi fun _ => gaussianReal 0 1

instance : IsProbabilityMeasure (freq d) := by unfold freq; infer_instance

instance : (freq d).IsOpenPosMeasure := by
  have : (gaussianReal 0 1).IsOpenPosMeasure := (gaussianReal_absolutelyContinuous' 0 (one_ne_zero)).isOpenPosMeasure
  unfold freq
  infer_instance

/-- `exp (i <t, x>)`. -/
noncomputable def wave (t x : Fin d → ℝ) : ℂ := cexp ((∑ k, t k * x k : ℝ) * I)

theorem wave_norm (t x : Fin d → ℝ) : ‖wave t x‖ = 1 := norm_exp_ofReal_mul_I _

theorem wave_cont : Continuous fun q : (Fin d → ℝ) × (Fin d → ℝ) => wave q.1 q.2 := by
  unfold wave
  fun_prop

theorem wave_sub (t x y : Fin d → ℝ) : wave t x * conj (wave t y) = wave t (x - y) := by
  unfold wave
  rw [← exp_conj, ← exp_add]
  congr 1
  simp only [map_mul, conj_ofReal, conj_I, Pi.sub_apply, mul_sub, Finset.sum_sub_distrib]
  push_cast
  ring

theorem wave_zero (x : Fin d → ℝ) : wave 0 x = 1 := by simp [wave]

theorem freq_wave (x : Fin d → ℝ) : ∫ t, wave t x ∂freq d = (Real.exp (-(1 / 2) * ∑ k, x k ^ 2) : ℝ) := by
  have h : ∀ t : Fin d → ℝ, wave t x = ∏ k, cexp (x k * t k * I) := fun t => by
    unfold wave
    rw [← exp_sum]
    congr 1
    push_cast
    rw [Finset.sum_mul]
    exact Finset.sum_congr rfl fun k _ => by ring
  simp only [h]
  unfold freq
  rw [integral_fintype_prod_eq_prod (f := fun k (s : ℝ) => cexp (x k * s * I))]
  simp only [← charFun_apply_real, charFun_gaussianReal]
  rw [← exp_sum, ofReal_exp]
  congr 1
  push_cast
  rw [Finset.mul_sum]
  exact Finset.sum_congr rfl fun k _ => by ring

theorem kernel_wave (X : Data n d) (i j : Fin n) : (gaussianKernel X i j : ℂ) = ∫ t, wave t (X i - X j) ∂freq d := by
  rw [freq_wave]
  rfl

/-- The combination of waves whose squared size the statistic is the mean of. -/
noncomputable def comb (X : Data n d) (Y : Data n e) (q : (Fin d → ℝ) × (Fin e → ℝ)) : ℂ :=
  ∑ r : Fin n × Fin n, (hMat n r.1 r.2 : ℂ) * (wave q.1 (X r.1) * wave q.2 (Y r.2))

theorem bounded_integrable {α : Type*} [MeasurableSpace α] {μ : Measure α} [IsFiniteMeasure μ] {f : α → ℂ} (hf : Measurable f) {C : ℝ} (h : ∀ x, ‖f x‖ ≤ C) : Integrable f μ :=
  Integrable.of_bound hf.aestronglyMeasurable C (ae_of_all _ h)

theorem stat_integral (X : Data n d) (Y : Data n e) :
    hsicStat (center (gaussianKernel X)) (center (gaussianKernel Y)) = ∫ q, ‖comb X Y q‖ ^ 2 ∂(freq d).prod (freq e) := by
  apply ofReal_injective
  rw [stat_four, ← integral_complex_ofReal]
  have h : ∀ q : (Fin d → ℝ) × (Fin e → ℝ), ((‖comb X Y q‖ ^ 2 : ℝ) : ℂ) = ∑ r : Fin n × Fin n, ∑ r' : Fin n × Fin n,
      (hMat n r.1 r.2 * hMat n r'.1 r'.2 : ℂ) * (wave q.1 (X r.1 - X r'.1) * wave q.2 (Y r.2 - Y r'.2)) := fun q => by
    push_cast
    rw [← mul_conj']
    unfold comb
    rw [map_sum, Finset.sum_mul_sum]
    refine Finset.sum_congr rfl fun r _ => Finset.sum_congr rfl fun r' _ => ?_
    rw [← wave_sub, ← wave_sub, map_mul, map_mul, conj_ofReal]
    ring
  simp only [h]
  have hm1 : ∀ x : Fin d → ℝ, Measurable fun t => wave t x := fun x => (wave_cont.comp (by fun_prop : Continuous fun t : Fin d → ℝ => (t, x))).measurable
  have hm2 : ∀ x : Fin e → ℝ, Measurable fun t => wave t x := fun x => (wave_cont.comp (by fun_prop : Continuous fun t : Fin e → ℝ => (t, x))).measurable
  have hi : ∀ r r' : Fin n × Fin n, Integrable (fun q : (Fin d → ℝ) × (Fin e → ℝ) =>
      (hMat n r.1 r.2 * hMat n r'.1 r'.2 : ℂ) * (wave q.1 (X r.1 - X r'.1) * wave q.2 (Y r.2 - Y r'.2))) ((freq d).prod (freq e)) := fun r r' =>
    (bounded_integrable (C := 1) (((hm1 _).comp measurable_fst).mul ((hm2 _).comp measurable_snd)) fun q => by
      simp [wave_norm]).const_mul _
  rw [integral_finsetSum _ fun r _ => integrable_finsetSum _ fun r' _ => hi r r']
  push_cast
  refine Finset.sum_congr rfl fun r _ => ?_
  rw [integral_finsetSum _ fun r' _ => hi r r', Finset.mul_sum]
  refine Finset.sum_congr rfl fun r' _ => ?_
  rw [integral_const_mul, integral_prod_mul (fun t => wave t (X r.1 - X r'.1)) fun t => wave t (Y r.2 - Y r'.2), ← kernel_wave, ← kernel_wave]
  ring

theorem comb_eq (X : Data n d) (Y : Data n e) (q : (Fin d → ℝ) × (Fin e → ℝ)) :
    comb X Y q = ∑ i, wave q.1 (X i) * wave q.2 (Y i) - 1 / n * ((∑ i, wave q.1 (X i)) * ∑ i, wave q.2 (Y i)) := by
  unfold comb hMat
  simp only [Matrix.sub_apply, Matrix.one_apply, Matrix.of_apply, Fintype.sum_prod_type]
  push_cast
  simp only [sub_mul, Finset.sum_sub_distrib]
  congr 1
  · refine Finset.sum_congr rfl fun i _ => ?_
    rw [Finset.sum_eq_single i]
    · simp
    · intro j _ hj; simp [hj.symm]
    · simp
  · rw [Finset.sum_mul_sum, Finset.mul_sum]
    exact Finset.sum_congr rfl fun i _ => by rw [Finset.mul_sum]

section limit
variable {Ω : Type} [MeasurableSpace Ω] {P : Measure Ω} [IsProbabilityMeasure P]

/-- Pairs of records drawn independently from one distribution. -/
structure DrawnPairs (P : Measure Ω) (X : ℕ → Ω → Fin d → ℝ) (Y : ℕ → Ω → Fin e → ℝ) : Prop where
  measX : ∀ s, Measurable (X s)
  measY : ∀ s, Measurable (Y s)
  indep : iIndepFun (fun s ω => (X s ω, Y s ω)) P
  ident : ∀ s, IdentDistrib (fun ω => (X s ω, Y s ω)) (fun ω => (X 0 ω, Y 0 ω)) P P

/-- The characteristic function of a pair of records. -/
noncomputable def jointChar (P : Measure Ω) (X : Ω → Fin d → ℝ) (Y : Ω → Fin e → ℝ) (q : (Fin d → ℝ) × (Fin e → ℝ)) : ℂ := ∫ ω, wave q.1 (X ω) * wave q.2 (Y ω) ∂P

/-- How far it is from the product. -/
noncomputable def excess (P : Measure Ω) (X : Ω → Fin d → ℝ) (Y : Ω → Fin e → ℝ) (q : (Fin d → ℝ) × (Fin e → ℝ)) : ℂ :=
  jointChar P X Y q - jointChar P X Y (q.1, 0) * jointChar P X Y (0, q.2)

omit [IsProbabilityMeasure P] in
theorem meas_wave {X : Ω → Fin d → ℝ} {Y : Ω → Fin e → ℝ} (hX : Measurable X) (hY : Measurable Y) (q : (Fin d → ℝ) × (Fin e → ℝ)) :
    Measurable fun ω => wave q.1 (X ω) * wave q.2 (Y ω) := by
  have h : ∀ {d : Nat} {X : Ω → Fin d → ℝ}, Measurable X → ∀ t, Measurable fun ω => wave t (X ω) := fun {d X} hX t =>
    (wave_cont.comp (by fun_prop : Continuous fun x : Fin d → ℝ => (t, x))).measurable.comp hX
  exact (h hX _).mul (h hY _)

theorem jointChar_cont {X : Ω → Fin d → ℝ} {Y : Ω → Fin e → ℝ} (hX : Measurable X) (hY : Measurable Y) : Continuous (jointChar P X Y) := by
  unfold jointChar
  refine continuous_of_dominated (bound := fun _ => 1) (fun q => (meas_wave hX hY q).aestronglyMeasurable) (fun q => ae_of_all _ fun ω => by simp [wave_norm]) (integrable_const _)
    (ae_of_all _ fun ω => ?_)
  exact (wave_cont.comp (by fun_prop : Continuous fun q : (Fin d → ℝ) × (Fin e → ℝ) => (q.1, X ω))).mul
    (wave_cont.comp (by fun_prop : Continuous fun q : (Fin d → ℝ) × (Fin e → ℝ) => (q.2, Y ω)))

theorem excess_cont {X : Ω → Fin d → ℝ} {Y : Ω → Fin e → ℝ} (hX : Measurable X) (hY : Measurable Y) : Continuous (excess P X Y) := by
  have h := jointChar_cont (P := P) hX hY
  unfold excess
  fun_prop

theorem excess_zero {X : Ω → Fin d → ℝ} {Y : Ω → Fin e → ℝ} (hX : Measurable X) (hY : Measurable Y) : (∀ q, excess P X Y q = 0) ↔ IndepFun X Y P := by
  constructor
  · intro h
    rw [indepFun_iff_charFunDual_prod hX.aemeasurable hY.aemeasurable]
    intro L
    obtain ⟨a, hL1⟩ : ∃ a : Fin d → ℝ, ∀ x, L (x, 0) = ∑ k, a k * x k := ⟨fun k => L (Pi.single k 1, 0), fun x => by
      have : (x, (0 : Fin e → ℝ)) = ∑ k, x k • ((Pi.single k 1 : Fin d → ℝ), (0 : Fin e → ℝ)) := by
        ext j
        · simp [Prod.fst_sum, Finset.sum_apply, Pi.single_apply]
        · simp [Prod.snd_sum]
      conv_lhs => rw [this]
      rw [map_sum]
      exact Finset.sum_congr rfl fun k _ => by rw [map_smul, smul_eq_mul, mul_comm]⟩
    obtain ⟨b, hL2⟩ : ∃ b : Fin e → ℝ, ∀ y, L (0, y) = ∑ k, b k * y k := ⟨fun k => L (0, Pi.single k 1), fun y => by
      have : ((0 : Fin d → ℝ), y) = ∑ k, y k • ((0 : Fin d → ℝ), (Pi.single k 1 : Fin e → ℝ)) := by
        ext j
        · simp [Prod.fst_sum]
        · simp [Prod.snd_sum, Finset.sum_apply, Pi.single_apply]
      conv_lhs => rw [this]
      rw [map_sum]
      exact Finset.sum_congr rfl fun k _ => by rw [map_smul, smul_eq_mul, mul_comm]⟩
    have := h (a, b)
    unfold excess jointChar at this
    simp only [wave_zero, mul_one, one_mul] at this
    simp only [charFunDual_apply]
    rw [integral_map (by fun_prop) (by fun_prop), integral_map (by fun_prop) (by fun_prop), integral_map (by fun_prop) (by fun_prop), ← sub_eq_zero, ← this]
    congr 1
    · refine integral_congr_ae (ae_of_all _ fun ω => ?_)
      have hs : L (X ω, Y ω) = L (X ω, 0) + L (0, Y ω) := by rw [← map_add]; simp
      simp only [hs, hL1, hL2, wave]
      rw [← exp_add]
      congr 1
      push_cast
      ring
    · congr 1
      · refine integral_congr_ae (ae_of_all _ fun ω => ?_)
        simp only [ContinuousLinearMap.comp_apply, ContinuousLinearMap.inl_apply, hL1, wave]
      · refine integral_congr_ae (ae_of_all _ fun ω => ?_)
        simp only [ContinuousLinearMap.comp_apply, ContinuousLinearMap.inr_apply, hL2, wave]
  · intro h q
    have h1 : ∀ t, Measurable fun x : Fin d → ℝ => wave t x := fun t => (wave_cont.comp (by fun_prop : Continuous fun x : Fin d → ℝ => (t, x))).measurable
    have h2 : ∀ t, Measurable fun x : Fin e → ℝ => wave t x := fun t => (wave_cont.comp (by fun_prop : Continuous fun x : Fin e → ℝ => (t, x))).measurable
    unfold excess jointChar
    simp only [wave_zero, mul_one, one_mul]
    exact sub_eq_zero.2 ((h.comp (h1 q.1) (h2 q.2)).integral_fun_mul_eq_mul_integral ((h1 q.1).comp hX).aestronglyMeasurable ((h2 q.2).comp hY).aestronglyMeasurable)

/-- The limit of the statistic. -/
noncomputable def limitStat (P : Measure Ω) (X : Ω → Fin d → ℝ) (Y : Ω → Fin e → ℝ) : ℝ := ∫ q, ‖excess P X Y q‖ ^ 2 ∂(freq d).prod (freq e)

theorem jointChar_le (X : Ω → Fin d → ℝ) (Y : Ω → Fin e → ℝ) (q : (Fin d → ℝ) × (Fin e → ℝ)) : ‖jointChar P X Y q‖ ≤ 1 := by
  unfold jointChar
  refine (norm_integral_le_integral_norm _).trans ?_
  simp [wave_norm]

theorem excess_le (X : Ω → Fin d → ℝ) (Y : Ω → Fin e → ℝ) (q : (Fin d → ℝ) × (Fin e → ℝ)) : ‖excess P X Y q‖ ≤ 2 := by
  unfold excess
  have h1 := jointChar_le (P := P) X Y q
  have h2 : ‖jointChar P X Y (q.1, 0) * jointChar P X Y (0, q.2)‖ ≤ 1 := by
    rw [norm_mul]
    exact mul_le_one₀ (jointChar_le _ _ _) (norm_nonneg _) (jointChar_le _ _ _)
  exact (norm_sub_le _ _).trans (by linarith)

theorem limitStat_zero {X : Ω → Fin d → ℝ} {Y : Ω → Fin e → ℝ} (hX : Measurable X) (hY : Measurable Y) : 0 ≤ limitStat P X Y ∧ (limitStat P X Y = 0 ↔ IndepFun X Y P) := by
  have hc := excess_cont (P := P) hX hY
  have hi : Integrable (fun q => ‖excess P X Y q‖ ^ 2) ((freq d).prod (freq e)) :=
    Integrable.of_bound (hc.norm.pow 2).measurable.aestronglyMeasurable 4 (ae_of_all _ fun q => by
      rw [Real.norm_of_nonneg (by positivity)]
      nlinarith [excess_le (P := P) X Y q, norm_nonneg (excess P X Y q)])
  refine ⟨integral_nonneg fun q => by positivity, ?_⟩
  unfold limitStat
  rw [integral_eq_zero_iff_of_nonneg (fun q => by positivity) hi, Continuous.ae_eq_iff_eq _ (f := fun q => ‖excess P X Y q‖ ^ 2) (g := 0) (hc.norm.pow 2) continuous_zero, ← excess_zero hX hY]
  constructor
  · intro h q
    simpa using congrFun h q
  · intro h
    funext q
    simp [h q]

/-- The statistic of the first `N` records, divided by the square of their number, tends to the limit with probability one. -/
theorem stat_limit {X : ℕ → Ω → Fin d → ℝ} {Y : ℕ → Ω → Fin e → ℝ} (h : DrawnPairs P X Y) :
    ∀ᵐ ω ∂P, Tendsto (fun N : ℕ => hsicStat (center (gaussianKernel fun s : Fin N => X s ω)) (center (gaussianKernel fun s : Fin N => Y s ω)) / (N : ℝ) ^ 2) atTop
      (𝓝 (limitStat P (X 0) (Y 0))) := by
  obtain ⟨A, hA⟩ : ∃ A : ℕ → Ω → (Fin d → ℝ) × (Fin e → ℝ) → ℂ, A = fun (N : ℕ) ω q => (N : ℝ)⁻¹ • ∑ s ∈ Finset.range N, wave q.1 (X s ω) * wave q.2 (Y s ω) := ⟨_, rfl⟩
  have hlaw : ∀ q, ∀ᵐ ω ∂P, Tendsto (fun N => A N ω q) atTop (𝓝 (jointChar P (X 0) (Y 0) q)) := fun q => by
    have hg : Measurable fun z : (Fin d → ℝ) × (Fin e → ℝ) => wave q.1 z.1 * wave q.2 z.2 := meas_wave measurable_fst measurable_snd q
    have := strong_law_ae (fun s ω => wave q.1 (X s ω) * wave q.2 (Y s ω)) (μ := P)
      (bounded_integrable (C := 1) (meas_wave (h.measX 0) (h.measY 0) q) fun ω => by simp [wave_norm])
      (fun i j hij => (h.indep.indepFun hij).comp hg hg) fun s => (h.ident s).comp hg
    rw [hA]
    exact this
  have hF : ∀ q, ∀ᵐ ω ∂P, Tendsto (fun N => A N ω q - A N ω (q.1, 0) * A N ω (0, q.2)) atTop (𝓝 (excess P (X 0) (Y 0) q)) := fun q => by
    filter_upwards [hlaw q, hlaw (q.1, 0), hlaw (0, q.2)] with ω h1 h2 h3
    exact h1.sub (h2.mul h3)
  have hAm : ∀ N, Measurable fun z : Ω × ((Fin d → ℝ) × (Fin e → ℝ)) => A N z.1 z.2 := fun N => by
    rw [hA]
    suffices hs : Measurable fun z : Ω × ((Fin d → ℝ) × (Fin e → ℝ)) => ∑ s ∈ Finset.range N, wave z.2.1 (X s z.1) * wave z.2.2 (Y s z.1) from hs.const_smul ((N : ℝ)⁻¹)
    refine Finset.measurable_fun_sum _ fun s _ => ?_
    exact (wave_cont.measurable.comp ((measurable_fst.comp measurable_snd).prodMk ((h.measX s).comp measurable_fst))).mul
      (wave_cont.measurable.comp ((measurable_snd.comp measurable_snd).prodMk ((h.measY s).comp measurable_fst)))
  have hFm : ∀ N, Measurable fun z : Ω × ((Fin d → ℝ) × (Fin e → ℝ)) => A N z.1 z.2 - A N z.1 (z.2.1, 0) * A N z.1 (0, z.2.2) := fun N =>
    (hAm N).sub (((hAm N).comp (by fun_prop : Measurable fun z : Ω × ((Fin d → ℝ) × (Fin e → ℝ)) => (z.1, (z.2.1, (0 : Fin e → ℝ))))).mul
      ((hAm N).comp (by fun_prop : Measurable fun z : Ω × ((Fin d → ℝ) × (Fin e → ℝ)) => (z.1, ((0 : Fin d → ℝ), z.2.2)))))
  have hms := measurableSet_tendsto_fun (l := atTop) hFm ((excess_cont (P := P) (h.measX 0) (h.measY 0)).measurable.comp measurable_snd)
  have hae := (Measure.ae_ae_comm (μ := P) (ν := (freq d).prod (freq e))
    (p := fun ω q => Tendsto (fun N => A N ω q - A N ω (q.1, 0) * A N ω (0, q.2)) atTop (𝓝 (excess P (X 0) (Y 0) q))) hms).2 (ae_of_all _ hF)
  filter_upwards [hae] with ω hω
  have hA1 : ∀ N q, ‖A N ω q‖ ≤ 1 := fun N q => by
    rw [hA, norm_smul, norm_inv, Real.norm_natCast]
    have : ‖∑ s ∈ Finset.range N, wave q.1 (X s ω) * wave q.2 (Y s ω)‖ ≤ N := by
      refine (norm_sum_le _ _).trans ?_
      simp [wave_norm]
    by_cases hN : N = 0
    · subst hN; simp
    · have hN' : (0 : ℝ) < N := by positivity
      rw [inv_mul_le_iff₀ hN']
      linarith
  have hF2 : ∀ N q, ‖A N ω q - A N ω (q.1, 0) * A N ω (0, q.2)‖ ≤ 2 := fun N q => by
    have h2 : ‖A N ω (q.1, 0) * A N ω (0, q.2)‖ ≤ 1 := by
      rw [norm_mul]
      exact mul_le_one₀ (hA1 _ _) (norm_nonneg _) (hA1 _ _)
    exact (norm_sub_le _ _).trans (by linarith [hA1 N q])
  have hlim : Tendsto (fun N => ∫ q, ‖A N ω q - A N ω (q.1, 0) * A N ω (0, q.2)‖ ^ 2 ∂(freq d).prod (freq e)) atTop (𝓝 (limitStat P (X 0) (Y 0))) := by
    refine tendsto_integral_of_dominated_convergence (fun _ => 4) (fun N => ?_) (integrable_const _) (fun N => ae_of_all _ fun q => ?_) ?_
    · exact (((hFm N).comp (by fun_prop : Measurable fun q : (Fin d → ℝ) × (Fin e → ℝ) => (ω, q))).norm.pow_const 2).aestronglyMeasurable
    · rw [Real.norm_of_nonneg (by positivity)]
      nlinarith [hF2 N q, norm_nonneg (A N ω q - A N ω (q.1, 0) * A N ω (0, q.2))]
    · filter_upwards [hω] with q hq
      exact (hq.norm).pow 2
  refine hlim.congr' ?_
  filter_upwards [eventually_gt_atTop 0] with N hN
  have hN' : (N : ℝ) ≠ 0 := by positivity
  rw [stat_integral, ← integral_div]
  refine integral_congr_ae (ae_of_all _ fun q => ?_)
  simp only
  have : comb (fun s : Fin N => X s ω) (fun s : Fin N => Y s ω) q = (N : ℂ) * (A N ω q - A N ω (q.1, 0) * A N ω (0, q.2)) := by
    rw [comb_eq, hA]
    simp only [wave_zero, mul_one, one_mul, real_smul, ofReal_inv, ofReal_natCast, Finset.sum_range]
    have : (N : ℂ) ≠ 0 := by exact_mod_cast hN.ne'
    field_simp
  rw [this, norm_mul, mul_pow, Complex.norm_natCast]
  field_simp

end limit

end Cdmir.KTest
