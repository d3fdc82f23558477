import Verif.Lemmas.MedianWidth
import Verif.Props.Hsic
import Verif.Props.KernelPower

/-! C181: the HSIC test of HSIC.py, whose kernels have the median width, on drawn records. It finds every dependence. -/

namespace Cdmir.MedianWidth
open BigOperators KTest

variable {n : Nat}

section sample

theorem center_smul (c : ℝ) (K : Matrix (Fin n) (Fin n) ℝ) : center (c • K) = c • center K := by
  unfold center
  rw [Matrix.mul_smul, Matrix.smul_mul]

theorem stat_ge {K K' L : Matrix (Fin n) (Fin n) ℝ} {c : ℝ} (h : (K - c • K').PosSemidef) (hL : L.PosSemidef) :
    c * hsicStat (center K') (center L) ≤ hsicStat (center K) (center L) := by
  have h1 := stat_nonneg (center_psd h) (center_psd hL)
  rw [center_sub, center_smul] at h1
  have h2 : hsicStat (center K - c • center K') (center L) = hsicStat (center K) (center L) - c * hsicStat (center K') (center L) := by
    unfold hsicStat
    rw [Finset.mul_sum, ← Finset.sum_sub_distrib]
    refine Finset.sum_congr rfl fun i _ => ?_
    rw [Finset.mul_sum, ← Finset.sum_sub_distrib]
    refine Finset.sum_congr rfl fun j _ => ?_
    rw [Matrix.sub_apply, Matrix.smul_apply, smul_eq_mul]
    ring
  linarith

theorem width_gauss_psd {d : Nat} (X : Data n d) {w : ℝ} (hw : 0 ≤ w) : (gaussianWidth w X).PosSemidef := by
  have h := gauss_psd X (w := w / 2) (by positivity)
  have e : (Matrix.of fun i j => Real.exp (-(w / 2 * sqDist X i j)) : Matrix (Fin n) (Fin n) ℝ) = gaussianWidth w X := by
    ext i j
    simp only [Matrix.of_apply, gaussianWidth]
    congr 1
    ring
  rwa [e] at h

/-- The statistic with narrower kernels is at least a multiple of that with wider ones. -/
theorem stat_width (X Y : Data n 1) {a w b v : ℝ} (ha : 0 < a) (hw : a ≤ w) (hb : 0 < b) (hv : b ≤ v) :
    √(a / w) * √(b / v) * hsicStat (center (gaussianWidth a X)) (center (gaussianWidth b Y)) ≤ hsicStat (center (gaussianWidth w X)) (center (gaussianWidth v Y)) := by
  have h1 := stat_ge (width_psd X ha hw) (width_gauss_psd Y (hb.trans_le hv).le)
  have h2 := stat_ge (width_psd Y hb hv) (width_gauss_psd X ha.le)
  rw [hsicStat_comm, hsicStat_comm (center (gaussianWidth v Y))] at h2
  refine le_trans ?_ h1
  rw [mul_assoc]
  exact mul_le_mul_of_nonneg_left h2 (Real.sqrt_nonneg _)

theorem expMat_width {d : Nat} (X : Data n d) (m : ℝ) : expMat X m = gaussianWidth (2 / m) X := by
  ext i j
  simp only [expMat, Matrix.of_apply, gaussianWidth]
  congr 1
  ring

/-- What C181 asks of the quantile function `gamma.ppf`: the quantile is a number, and at most what Markov's inequality gives for the mean `al * bet`. -/
def Quantile (ppf : ℝ → ℝ → ℝ → Option ℝ) : Prop := ∀ α al bet : ℝ, 0 < α → α < 1 → 0 < al → 0 < bet → ∃ q, ppf (1 - α) al bet = some q ∧ q ≤ al * bet / α

/-- On six records or more the test answers "dependent" if the statistic is great. -/
theorem test_of_stat {ppf : ℝ → ℝ → ℝ → Option ℝ} (hq : Quantile ppf) {α : ℝ} (h0 : 0 < α) (h1 : α < 1) (hn : 6 ≤ n) {X Y : Data n 1} {K L : Matrix (Fin n) (Fin n) ℝ}
    (hX : kernelOf X = some K) (hY : kernelOf Y = some L) (hKp : ∀ i j, 0 ≤ K i j) (hLp : ∀ i j, 0 ≤ L i j) (hs : n / α < hsicStat (center K) (center L)) (hs' : 16 * n < hsicStat (center K) (center L)) :
    hsicTest ppf α X Y = some false := by
  have hn0 : (0 : ℝ) < n := by exact_mod_cast (by omega : 0 < n)
  have hn6 : (6 : ℝ) ≤ n := by exact_mod_cast hn
  obtain ⟨hKpsd, hKd, hK1, -, -⟩ := kernelOf_some hX
  obtain ⟨hLpsd, hLd, hL1, -, -⟩ := kernelOf_some hY
  have hKa : ∀ i j, |K i j| ≤ 1 := fun i j => by rw [abs_of_nonneg (hKp i j)]; exact hK1 i j
  have hLa : ∀ i j, |L i j| ≤ 1 := fun i j => by rw [abs_of_nonneg (hLp i j)]; exact hL1 i j
  have hv : ∃ i j, i ≠ j ∧ center K i j * center L i j ≠ 0 := by
    by_contra hno
    push Not at hno
    have : hsicStat (center K) (center L) ≤ 16 * n := by
      have e : hsicStat (center K) (center L) = ∑ i, center K i i * center L i i := by
        unfold hsicStat
        exact Finset.sum_congr rfl fun i _ => Finset.sum_eq_single i (fun j _ hj => hno i j (Ne.symm hj)) fun h => absurd (Finset.mem_univ i) h
      rw [e]
      refine (Finset.sum_le_sum (g := fun _ => (16 : ℝ)) fun i _ => ?_).trans (by simp [mul_comm])
      have a1 := center_le zero_le_one hKa i i
      have a2 := center_le zero_le_one hLa i i
      refine (le_abs_self _).trans ?_
      rw [abs_mul]
      have := mul_le_mul a1 a2 (abs_nonneg _) (by norm_num)
      linarith
    linarith
  obtain ⟨v, hvv, hv0⟩ : ∃ v, varHsic (center K) (center L) = some v ∧ 0 < v := by
    unfold varHsic
    rw [if_neg (by omega)]
    refine ⟨_, rfl, ?_⟩
    have hb : 0 < varBase (center K) (center L) := by
      obtain ⟨i, j, hij, hne⟩ := hv
      unfold varBase
      rw [← Finset.sum_sub_distrib]
      refine div_pos (div_pos ?_ (by linarith)) (by linarith)
      have hdiag : ∀ i : Fin n, (center K i i * center L i i / 6) ^ 2 ≤ ∑ j, (center K i j * center L i j / 6) ^ 2 := fun i =>
        Finset.single_le_sum (f := fun j => (center K i j * center L i j / 6) ^ 2) (fun j _ => sq_nonneg _) (Finset.mem_univ i)
      refine Finset.sum_pos' (fun i _ => sub_nonneg.2 (hdiag i)) ⟨i, Finset.mem_univ i, ?_⟩
      have h2 : (center K i i * center L i i / 6) ^ 2 + (center K i j * center L i j / 6) ^ 2 ≤ ∑ j, (center K i j * center L i j / 6) ^ 2 :=
        Finset.add_le_sum (f := fun j => (center K i j * center L i j / 6) ^ 2) (fun j _ => sq_nonneg _) (Finset.mem_univ i) (Finset.mem_univ j) hij
      have h3 : 0 < (center K i j * center L i j / 6) ^ 2 := by positivity
      linarith
    have h4 : (0 : ℝ) < n - 4 := by linarith
    have h5 : (0 : ℝ) < n - 5 := by linarith
    have h1 : (0 : ℝ) < n - 1 := by linarith
    have h2 : (0 : ℝ) < n - 2 := by linarith
    have h3 : (0 : ℝ) < n - 3 := by linarith
    positivity
  have hmu : ∀ {K : Matrix (Fin n) (Fin n) ℝ}, (∀ i j, 0 ≤ K i j) → 0 ≤ mu K := fun hK => by
    unfold mu
    refine div_nonneg (div_nonneg (Finset.sum_nonneg fun i _ => Finset.sum_nonneg fun j _ => ?_) hn0.le) (by linarith)
    split
    · exact le_refl _
    · exact hK i j
  have b1 := mu_lt (by omega) hX
  have b2 := mu_lt (by omega) hY
  have b3 := hmu hKp
  have b4 := hmu hLp
  have hm : meanHsic K L = (1 - mu K) * (1 - mu L) / n := by
    unfold meanHsic
    congr 1
    ring
  have hm0 : 0 < meanHsic K L := by
    rw [hm]; exact div_pos (mul_pos (by linarith) (by linarith)) hn0
  have hm1 : n * meanHsic K L ≤ 1 := by
    rw [hm, mul_div_cancel₀ _ hn0.ne']
    nlinarith
  obtain ⟨q, hq1, hq2⟩ := hq α (meanHsic K L ^ 2 / v) (v * n / meanHsic K L) h0 h1 (by positivity) (by positivity)
  have hmean : meanHsic K L ^ 2 / v * (v * n / meanHsic K L) = n * meanHsic K L := by field_simp
  rw [hmean] at hq2
  have hqs : q < statOf (center K) (center L) := by
    rw [statOf_eq (psd_symm (center_psd hKpsd)), lt_div_iff₀ hn0]
    refine lt_of_le_of_lt ?_ hs
    have : q ≤ 1 / α := hq2.trans (div_le_div_of_nonneg_right hm1 h0.le)
    calc q * n ≤ 1 / α * n := mul_le_mul_of_nonneg_right this hn0.le
      _ = n / α := by ring
  rw [hsicTest_eq, hX, hY]
  simp only [gamOf, hvv]
  rw [if_neg (by rw [not_or]; exact ⟨hv0.ne', hm0.ne'⟩), hq1]
  simp only
  rw [if_neg (not_lt.2 hqs.le), if_pos hqs]

end sample

section drawn
open MeasureTheory ProbabilityTheory Filter
open scoped Topology

variable {Ω : Type} [MeasurableSpace Ω] {P : Measure Ω} [IsProbabilityMeasure P]

omit [IsProbabilityMeasure P] in
theorem drawn_numbers {X Y : ℕ → Ω → Fin 1 → ℝ} (h : DrawnPairs P X Y) : DrawnNumbers P fun s ω => X s ω 0 :=
  ⟨fun s => (measurable_pi_apply 0).comp (h.measX s),
    fun s t hst => (h.indep.indepFun hst).comp (φ := fun z : (Fin 1 → ℝ) × (Fin 1 → ℝ) => z.1 0) (ψ := fun z : (Fin 1 → ℝ) × (Fin 1 → ℝ) => z.1 0) (by fun_prop) (by fun_prop),
    fun s => (h.ident s).comp (u := fun z : (Fin 1 → ℝ) × (Fin 1 → ℝ) => z.1 0) (by fun_prop)⟩

/-- A variable that depends on another one has an event that is neither impossible nor certain. -/
theorem split_of_dep {X Y : Ω → Fin 1 → ℝ} (hX : Measurable X) (hdep : ¬ IndepFun X Y P) : ∃ A : Set ℝ, MeasurableSet A ∧ 0 < P.real {ω | X ω 0 ∈ A} ∧ P.real {ω | X ω 0 ∈ A} < 1 := by
  by_contra hno
  push Not at hno
  refine hdep (indepFun_iff_measure_inter_preimage_eq_mul.2 fun A B hA hB => ?_)
  have e : X ⁻¹' A = {ω | X ω 0 ∈ (fun y : ℝ => (fun _ => y : Fin 1 → ℝ)) ⁻¹' A} := by
    ext ω
    have : (fun _ => X ω 0 : Fin 1 → ℝ) = X ω := by ext k; rw [Subsingleton.elim k 0]
    simp only [Set.mem_preimage, Set.mem_ofPred_eq, this]
  have hm : MeasurableSet ((fun y : ℝ => (fun _ => y : Fin 1 → ℝ)) ⁻¹' A) := (measurable_pi_lambda _ fun _ => measurable_id) hA
  have h1 := hno _ hm
  rw [← e] at h1
  rcases (measureReal_nonneg (μ := P) (s := X ⁻¹' A)).eq_or_lt with h0 | h0
  · have hz : P (X ⁻¹' A) = 0 := (measureReal_eq_zero_iff).1 h0.symm
    rw [hz, zero_mul]
    exact measure_mono_null Set.inter_subset_left hz
  · have h2 : P (X ⁻¹' A) = 1 := by
      have h3 : P.real (X ⁻¹' A) = 1 := le_antisymm measureReal_le_one (h1 h0)
      rw [← ENNReal.ofReal_one, ← h3, ofReal_measureReal]
    have h3 : P (X ⁻¹' A)ᶜ = 0 := (prob_compl_eq_zero_iff (hX hA)).2 h2
    rw [h2, one_mul]
    refine measure_congr ?_
    filter_upwards [measure_eq_zero_iff_ae_notMem.1 h3] with ω hω
    have : ω ∈ X ⁻¹' A := not_not.1 hω
    exact propext ⟨fun h => h.2, fun h => ⟨this, h⟩⟩

/-- The kernels of the test have widths between two bounds from some number of records on. -/
theorem kernel_bounds {X Y : ℕ → Ω → Fin 1 → ℝ} (h : DrawnPairs P X Y) (hdep : ¬ IndepFun (X 0) (Y 0) P) :
    ∃ a b : ℝ, 0 < a ∧ a ≤ b ∧ ∀ᵐ ω ∂P, ∀ᶠ N : ℕ in atTop, ∃ w, a ≤ w ∧ w ≤ b ∧ kernelOf (upto X N ω) = some (gaussianWidth w (upto X N ω)) := by
  obtain ⟨A, hA, hA0, hA1⟩ := split_of_dep (h.measX 0) hdep
  obtain ⟨a, b, ha, hab, hm⟩ := median_bounds (drawn_numbers h) hA hA0 hA1
  have hb : 0 < b := ha.trans_le hab
  refine ⟨2 / b, 2 / a, by positivity, div_le_div_of_nonneg_left (by norm_num) ha hab, ?_⟩
  filter_upwards [hm] with ω hω
  filter_upwards [hω] with N hN
  obtain ⟨m, hm1, hm2, hm3⟩ := hN
  refine ⟨2 / m, div_le_div_of_nonneg_left (by norm_num) (ha.trans_le hm2) hm3, div_le_div_of_nonneg_left (by norm_num) ha hm2, ?_⟩
  have e : sqDist (upto X N ω) = fun i j : Fin N => (X i ω 0 - X j ω 0) ^ 2 := by
    funext i j
    simp [sqDist, upto]
  rw [kernelOf_eq, e, hm1, Option.map_some, expMat_width]

/-- C181. If the two variables are not independent then, with probability one, the test answers `False` at every level from some number of records on. -/
theorem c181_power {ppf : ℝ → ℝ → ℝ → Option ℝ} (hq : Quantile ppf) {X Y : ℕ → Ω → Fin 1 → ℝ} (h : DrawnPairs P X Y) (hdep : ¬ IndepFun (X 0) (Y 0) P) :
    ∀ᵐ ω ∂P, ∀ α, 0 < α → α < 1 → ∀ᶠ N : ℕ in atTop, hsicTest ppf α (upto X N ω) (upto Y N ω) = some false := by
  obtain ⟨a, a', ha, haa, hX⟩ := kernel_bounds h hdep
  obtain ⟨b, b', hb, hbb, hY⟩ := kernel_bounds h.swap fun hi => hdep hi.symm
  obtain ⟨D, hD0, hD, hl⟩ := c178_vstat ha hb h
  have hDpos : 0 < D := lt_of_le_of_ne hD0 fun h0 => hdep (hD.1 h0.symm)
  filter_upwards [hX, hY, hl] with ω h1 h2 h3 α hα hα1
  obtain ⟨c, hc⟩ : ∃ c, c = √(a / a') * √(b / b') * (D / 2) := ⟨_, rfl⟩
  have ha' := ha.trans_le haa
  have hb' := hb.trans_le hbb
  have hc0 : 0 < c := by rw [hc]; positivity
  have h4 : ∀ᶠ N : ℕ in atTop, (1 / α + 16) / c < N := tendsto_natCast_atTop_atTop.eventually (eventually_gt_atTop _)
  filter_upwards [h1, h2, h3.eventually (lt_mem_nhds (by linarith : D / 2 < D)), h4, eventually_ge_atTop 6] with N k1 k2 k3 k4 k5
  obtain ⟨w, hw1, hw2, hw3⟩ := k1
  obtain ⟨v, hv1, hv2, hv3⟩ := k2
  have hN : (0 : ℝ) < N := by exact_mod_cast (by omega : 0 < N)
  have hw0 := ha.trans_le hw1
  have hv0 := hb.trans_le hv1
  have s1 := stat_width (upto X N ω) (upto Y N ω) ha hw1 hb hv1
  have s2 : HsicTest.vStat (gaussianWidth a (upto X N ω)) (gaussianWidth b (upto Y N ω)) = hsicStat (center (gaussianWidth a (upto X N ω))) (center (gaussianWidth b (upto Y N ω))) := by
    unfold HsicTest.vStat
    rw [centerKernelMatrix_eq (gaussianWidth_symm a _), centerKernelMatrix_eq (gaussianWidth_symm b _)]
    rfl
  rw [s2, lt_div_iff₀ (by positivity)] at k3
  have s3 : c * (N : ℝ) ^ 2 ≤ hsicStat (center (gaussianWidth w (upto X N ω))) (center (gaussianWidth v (upto Y N ω))) := by
    refine le_trans ?_ s1
    have e1 : √(a / a') ≤ √(a / w) := Real.sqrt_le_sqrt (div_le_div_of_nonneg_left ha.le hw0 hw2)
    have e2 : √(b / b') ≤ √(b / v) := Real.sqrt_le_sqrt (div_le_div_of_nonneg_left hb.le hv0 hv2)
    have e3 := mul_le_mul e1 e2 (Real.sqrt_nonneg _) (Real.sqrt_nonneg _)
    have e4 := mul_le_mul e3 k3.le (by positivity) (by positivity)
    rw [hc, mul_assoc]
    exact e4
  have s4 : (1 / α + 16) * N < hsicStat (center (gaussianWidth w (upto X N ω))) (center (gaussianWidth v (upto Y N ω))) := by
    refine lt_of_lt_of_le ?_ s3
    rw [div_lt_iff₀ hc0] at k4
    have := mul_lt_mul_of_pos_right k4 hN
    linarith
  have s5 : (0 : ℝ) < N / α := by positivity
  have s6 : (1 / α + 16) * N = N / α + 16 * N := by ring
  exact test_of_stat hq hα hα1 k5 hw3 hv3 (fun i j => (Real.exp_pos _).le) (fun i j => (Real.exp_pos _).le) (by linarith) (by linarith)

end drawn

section examples
open MeasureTheory ProbabilityTheory Filter

/-- The quantile function of the gamma distribution. -/
noncomputable def gammaPpf (p k θ : ℝ) : Option ℝ := some (sInf {t | p ≤ gammaCdf t k θ})

/-- The true quantile function meets the hypothesis of `c181_power`. -/
theorem gamma_quantile : Quantile gammaPpf := by
  intro α k θ hα hα1 hk hθ
  refine ⟨_, rfl, csInf_le ⟨0, fun t ht => ?_⟩ ?_⟩
  · by_contra hneg
    have ht0 : t < 0 := not_le.1 hneg
    have h1 : gammaCdf t k θ = 0 := by
      unfold gammaCdf gammaMeasure
      rw [measureReal_eq_zero_iff (by
        have := isProbabilityMeasure_gammaMeasure hk (by positivity : 0 < 1 / θ)
        exact measure_ne_top (gammaMeasure k (1 / θ)) _), withDensity_apply _ measurableSet_Iic]
      exact le_antisymm ((lintegral_mono_set (Set.Iic_subset_Iio.2 ht0)).trans (lintegral_gammaPDF_of_nonpos le_rfl).le) bot_le
    have ht' : 1 - α ≤ gammaCdf t k θ := ht
    rw [h1] at ht'
    linarith
  · have h := gamma_markov (k * θ / α) k θ (by positivity) hk hθ
    have e : k * θ / (k * θ / α) = α := by field_simp
    rw [e] at h
    show 1 - α ≤ gammaCdf (k * θ / α) k θ
    linarith

example : ∃ (Ω : Type) (_ : MeasurableSpace Ω) (P : Measure Ω) (X Y : ℕ → Ω → Fin 1 → ℝ),
    ∀ᵐ ω ∂P, ∀ α, 0 < α → α < 1 → ∀ᶠ N : ℕ in atTop, hsicTest gammaPpf α (upto X N ω) (upto Y N ω) = some false := by
  obtain ⟨Ω, mΩ, P, hP, X, Y, h, -, -, hd⟩ := exPairs
  exact ⟨Ω, mΩ, P, X, Y, c181_power gamma_quantile h hd⟩

end examples

end Cdmir.MedianWidth
