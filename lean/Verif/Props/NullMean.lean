import Verif.Props.FeatureTest
import Verif.Props.AnmDrawn

/-! C184: under independence the statistic of every kernel test has, up to the factor `n / (n - 1)`, the mean of the distribution that it is compared with. -/

namespace Cdmir.NullMean
open BigOperators KTest HsicTest ShuffleTest SpectralTest FeatureTest MeasureTheory ProbabilityTheory

variable {n d e p q : Nat}

theorem center_bound {K : Mat n} {C : ℝ} (hK : ∀ i j, |K i j| ≤ C) (i j : Fin n) : |centerKernelMatrix K i j| ≤ 4 * C := by
  have hn : (0 : ℝ) < n := by exact_mod_cast i.pos
  have hc : ∀ j, |colSums K j| ≤ n * C := fun j => sum_le fun i => hK i j
  have hv : |vecSum (colSums K)| ≤ n * (n * C) := sum_le hc
  have h1 : |(colSums K j + colSums K i) / n| ≤ 2 * C := by
    rw [abs_div, abs_of_pos hn, div_le_iff₀ hn]
    have := abs_add_le (colSums K j) (colSums K i)
    have := hc i
    have := hc j
    linarith
  have h2 : |vecSum (colSums K) / (n : ℝ) ^ 2| ≤ C := by
    rw [abs_div, abs_of_pos (by positivity : (0 : ℝ) < (n : ℝ) ^ 2), div_le_iff₀ (by positivity)]
    linarith
  change |K i j - (colSums K j + colSums K i) / n + vecSum (colSums K) / (n : ℝ) ^ 2| ≤ 4 * C
  have h3 := hK i j
  rw [abs_le] at *
  constructor <;> linarith

variable {Ω : Type} [MeasurableSpace Ω] {P : Measure Ω} [IsProbabilityMeasure P]

theorem center_meas {Z : Type} [MeasurableSpace Z] {K : Z → Mat n} (h : ∀ i j, Measurable fun z => K z i j) (i j : Fin n) :
    Measurable fun z => centerKernelMatrix (K z) i j := by
  unfold centerKernelMatrix vecSum colSums
  fun_prop

theorem v_bound {K L : Mat n} {C D : ℝ} (hK : ∀ i j, |K i j| ≤ C) (hL : ∀ i j, |L i j| ≤ D) : |vStat K L| ≤ n * (n * (4 * C * (4 * D))) :=
  sum_le fun i => sum_le fun j => by
    rw [abs_mul]
    exact mul_le_mul (center_bound hK i j) (center_bound hL i j) (abs_nonneg _) ((abs_nonneg _).trans (center_bound hK i j))

/-- C184. The mean of the statistic for independent samples with exchangeable rows. The kernels may depend on the whole sample (widths, standardisation), but not on the
order of the rows. -/
theorem c184_mean (hn : 2 ≤ n) {X : Ω → Data n d} {Y : Ω → Data n e} (hX : Measurable X) (hY : Measurable Y) (hi : IndepFun X Y P)
    (hex : ∀ σ : Equiv.Perm (Fin n), IdentDistrib (fun ω i => Y ω (σ i)) Y P P) {kx : Data n d → Mat n} {ky : Data n e → Mat n}
    (hkx : ∀ i j, Measurable fun x => kx x i j) (hky : ∀ i j, Measurable fun y => ky y i j) (hsx : ∀ x, (kx x).IsSymm) (hsy : ∀ y, (ky y).IsSymm)
    {C : ℝ} (hCx : ∀ x i j, |kx x i j| ≤ C) (hCy : ∀ y i j, |ky y i j| ≤ C)
    (heq : ∀ (σ : Equiv.Perm (Fin n)) y i j, ky (fun i => y (σ i)) i j = ky y (σ i) (σ j)) :
    Integrable (fun ω => vStat (kx (X ω)) (ky (Y ω))) P ∧
    ∫ ω, vStat (kx (X ω)) (ky (Y ω)) ∂P = (∫ ω, (centerKernelMatrix (kx (X ω))).trace * (centerKernelMatrix (ky (Y ω))).trace ∂P) / ((n : ℝ) - 1) := by
  have hn' : (2 : ℝ) ≤ n := by exact_mod_cast hn
  obtain ⟨t, ht⟩ : ∃ t : Equiv.Perm (Fin n) → Data n d × Data n e → ℝ, t = fun σ z => vStat (kx z.1) (shuffle σ (ky z.2)) := ⟨_, rfl⟩
  have htm : ∀ σ, Measurable (t σ) := fun σ => by
    rw [ht]
    exact meas_stat false (fun i j => (hkx i j).comp measurable_fst) fun i j => (hky (σ i) (σ j)).comp measurable_snd
  have hXY : Measurable fun ω => (X ω, Y ω) := hX.prodMk hY
  have hYσ : ∀ σ : Equiv.Perm (Fin n), Measurable fun ω i => Y ω (σ i) := fun σ => measurable_pi_lambda _ fun i => (measurable_pi_apply (σ i)).comp hY
  have hlaw : ∀ σ : Equiv.Perm (Fin n), P.map (fun ω => (X ω, fun i => Y ω (σ i))) = P.map fun ω => (X ω, Y ω) := fun σ => by
    have h1 : IndepFun X (fun ω i => Y ω (σ i)) P :=
      hi.comp (φ := fun x => x) (ψ := fun (y : Data n e) i => y (σ i)) measurable_id (measurable_pi_lambda _ fun i => measurable_pi_apply (σ i))
    rw [(indepFun_iff_map_prod_eq_prod_map_map hX.aemeasurable (hYσ σ).aemeasurable).1 h1, (indepFun_iff_map_prod_eq_prod_map_map hX.aemeasurable hY.aemeasurable).1 hi, (hex σ).map_eq]
  have hint : ∀ σ, Integrable (fun ω => t σ (X ω, Y ω)) P := fun σ =>
    Integrable.of_bound ((htm σ).comp hXY).aestronglyMeasurable (n * (n * (4 * C * (4 * C)))) (Filter.Eventually.of_forall fun ω => by
      rw [ht, Real.norm_eq_abs]
      exact v_bound (hCx _) fun i j => hCy _ _ _)
  have h1 : ∀ σ, ∫ ω, t σ (X ω, Y ω) ∂P = ∫ ω, t 1 (X ω, Y ω) ∂P := fun σ => by
    have e1 : ∀ ω, t σ (X ω, Y ω) = t 1 (X ω, fun i => Y ω (σ i)) := fun ω => by
      rw [ht]
      have : shuffle σ (ky (Y ω)) = shuffle 1 (ky fun i => Y ω (σ i)) := by
        ext i j
        exact (heq σ (Y ω) i j).symm
      simp only [this]
    simp only [e1]
    rw [← integral_map (φ := fun ω => (X ω, fun i => Y ω (σ i))) (f := t 1) (hX.prodMk (hYσ σ)).aemeasurable (htm 1).aestronglyMeasurable, hlaw,
      integral_map (φ := fun ω => (X ω, Y ω)) hXY.aemeasurable (htm 1).aestronglyMeasurable]
  have h2 : ∀ ω, ∑ σ, t σ (X ω, Y ω) = n.factorial * ((centerKernelMatrix (kx (X ω))).trace * (centerKernelMatrix (ky (Y ω))).trace / ((n : ℝ) - 1)) := fun ω => by
    rw [← sum_shuffle hn _ _ (center_row (by omega) (hsx (X ω))) (center_row (by omega) (hsy (Y ω))), ht]
    unfold vStat
    simp only [center_shuffle]
  have h3 : ∑ σ, ∫ ω, t σ (X ω, Y ω) ∂P = ∫ ω, ∑ σ, t σ (X ω, Y ω) ∂P := (integral_finsetSum _ fun σ _ => hint σ).symm
  simp only [h1, h2, Finset.sum_const, Finset.card_univ, Fintype.card_perm, Fintype.card_fin, nsmul_eq_mul] at h3
  rw [integral_const_mul, integral_div] at h3
  have hf : (n.factorial : ℝ) ≠ 0 := by exact_mod_cast n.factorial_ne_zero
  have e : t 1 = fun z => vStat (kx z.1) (ky z.2) := by rw [ht]; rfl
  have := hint 1
  rw [e] at h3 this
  exact ⟨this, mul_left_cancel₀ hf h3⟩

theorem share_count {Z : Type} (draws : List Z) (ν : Z → ℝ) (s : ℝ) :
    shareAbove (draws.map fun z => some (ν z)) (some s) = (1 + (draws.countP fun z => decide (s < ν z) : ℕ)) / (1 + (draws.length : ℝ)) := by
  unfold shareAbove
  rw [List.countP_map, List.length_map]
  rfl

/-- C184. The spectral test with kernels of fixed widths. The p-value counts the null samples above `s`; the mean of `s`, and of one null sample over its draws and the records. -/
theorem c184_spectral {ev : (k : Nat) → Matrix (Fin k) (Fin k) ℝ → List ℝ} (hev : EigvalsCorrect ev) {wx wy : ℝ} (hwx : 0 < wx) (hwy : 0 < wy) {X : ℕ → Ω → Fin d → ℝ}
    {Y : ℕ → Ω → Fin e → ℝ} (h : DrawnPairs P X Y) (hi : IndepFun (X 0) (Y 0) P) {Ω' : Type} [MeasurableSpace Ω'] {Q : Measure Ω'} [IsProbabilityMeasure Q]
    {z : Ω' → ℕ → ℕ → ℝ} (hz : Normal Q z) {N : ℕ} (hN : 2 ≤ N) :
    ∃ s : Ω → ℝ, (∀ ω draws, spectralTest (ev N) false draws (gaussianWidth wx (upto X N ω)) (gaussianWidth wy (upto Y N ω)) = (1 + (draws.countP fun z => decide
        (s ω < nullSample false (ev N (centerKernelMatrix (gaussianWidth wx (upto X N ω)))) (ev N (centerKernelMatrix (gaussianWidth wy (upto Y N ω)))) z) : ℕ)) / (1 + (draws.length : ℝ))) ∧
      ∫ ω, s ω ∂P = (N : ℝ) / ((N : ℝ) - 1) *
        ∫ ω, ∫ ω', nullSample false (ev N (centerKernelMatrix (gaussianWidth wx (upto X N ω)))) (ev N (centerKernelMatrix (gaussianWidth wy (upto Y N ω)))) (z ω') ∂Q ∂P := by
  refine ⟨fun ω => (N : ℝ) * vStat (gaussianWidth wx (upto X N ω)) (gaussianWidth wy (upto Y N ω)), fun ω draws => share_count _ _ _, ?_⟩
  obtain ⟨mX, mY, h1, h2⟩ := drawn_exchange h hi N
  have hk : ∀ {d : Nat} (w : ℝ) (i j : Fin N), Measurable fun x : Data N d => gaussianWidth w x i j := fun w i j => by
    unfold gaussianWidth sqDist
    fun_prop
  have hs : ∀ {d : Nat} (w : ℝ) (x : Data N d), (gaussianWidth w x).IsSymm := fun w x => by ext i j; exact gaussianWidth_symm w _ j i
  have hp : ∀ {d : Nat} {w : ℝ}, 0 < w → ∀ x : Data N d, (ev N (centerKernelMatrix (gaussianWidth w x))).sum = (centerKernelMatrix (gaussianWidth w x)).trace := fun hw x => by
    refine (eigvals_ok hev ?_).2.2.1
    rw [centerKernelMatrix_eq fun i j => (hs _ x).apply j i]
    exact center_psd (gaussianWidth_psd hw.le _)
  have hm := (c184_mean hN mX mY h1 h2 (hk wx) (hk wy) (hs wx) (hs wy) (C := 1) (fun x => gaussianWidth_le wx hwx.le x) (fun y => gaussianWidth_le wy hwy.le y) fun σ y i j => rfl).2
  simp only [(null_mean _ _ hz).2, hp hwx, hp hwy]
  rw [integral_const_mul, hm]
  ring

theorem cov_tr (hn : 2 ≤ n) (a : Matrix (Fin n) (Fin p) ℝ) : (centerKernelMatrix (gram a)).trace = ((n : ℝ) - 1) * (cov a).trace := by
  have hn' : (2 : ℝ) ≤ n := by exact_mod_cast hn
  have h1 : (n : ℝ) - 1 ≠ 0 := by linarith
  unfold cov
  rw [Matrix.trace_smul, smul_eq_mul, mul_inv_cancel_left₀ h1]
  unfold Matrix.trace
  simp only [Matrix.diag_apply, center_gram (show 0 < n by omega), Matrix.mul_apply, Matrix.transpose_apply]
  exact Finset.sum_comm

/-- C184. The spectral test with random features. -/
theorem c184_features {ev : (k : Nat) → Matrix (Fin k) (Fin k) ℝ → List ℝ} (hev : EigvalsCorrect ev) {f : Fin p → (Fin d → ℝ) → ℝ} {g : Fin q → (Fin e → ℝ) → ℝ}
    (hf : ∀ k, Measurable (f k)) (hg : ∀ l, Measurable (g l)) {B : ℝ} (hfB : ∀ k x, |f k x| ≤ B) (hgB : ∀ l y, |g l y| ≤ B) {X : ℕ → Ω → Fin d → ℝ} {Y : ℕ → Ω → Fin e → ℝ}
    (h : DrawnPairs P X Y) (hi : IndepFun (X 0) (Y 0) P) {Ω' : Type} [MeasurableSpace Ω'] {Q : Measure Ω'} [IsProbabilityMeasure Q]
    {z : Ω' → ℕ → ℕ → ℝ} (hz : Normal Q z) {N : ℕ} (hN : 2 ≤ N) :
    ∃ s : Ω → ℝ, (∀ ω draws, spectralTestRff ev false draws (feat f (upto X N ω)) (feat g (upto Y N ω)) = .ok ((1 + (draws.countP fun z => decide
        (s ω < nullSample false (ev p (cov (feat f (upto X N ω)))) (ev q (cov (feat g (upto Y N ω)))) z) : ℕ)) / (1 + (draws.length : ℝ)))) ∧
      ∫ ω, s ω ∂P = ((N : ℝ) - 1) / N *
        ∫ ω, ∫ ω', nullSample false (ev p (cov (feat f (upto X N ω)))) (ev q (cov (feat g (upto Y N ω)))) (z ω') ∂Q ∂P := by
  have hN' : (2 : ℝ) ≤ N := by exact_mod_cast hN
  obtain ⟨mX, mY, h1, h2⟩ := drawn_exchange h hi N
  have hk : ∀ {p d : Nat} {f : Fin p → (Fin d → ℝ) → ℝ}, (∀ k, Measurable (f k)) → ∀ (i j : Fin N), Measurable fun x : Data N d => gram (feat f x) i j := fun hf i j => by
    unfold HsicTest.gram feat
    simp only [Matrix.mul_apply, Matrix.transpose_apply, Matrix.of_apply]
    exact Finset.measurable_fun_sum _ fun k _ => ((hf k).comp (measurable_pi_apply i)).mul ((hf k).comp (measurable_pi_apply j))
  have hs : ∀ {p d : Nat} (f : Fin p → (Fin d → ℝ) → ℝ) (x : Data N d), (gram (feat f x)).IsSymm := fun f x => by
    ext i j
    unfold HsicTest.gram
    simp only [Matrix.transpose_apply, Matrix.mul_apply]
    exact Finset.sum_congr rfl fun k _ => mul_comm _ _
  have hb : ∀ {p d : Nat} {f : Fin p → (Fin d → ℝ) → ℝ}, (∀ k x, |f k x| ≤ B) → ∀ (x : Data N d) i j, |gram (feat f x) i j| ≤ p * B ^ 2 := fun hfB x i j => by
    unfold HsicTest.gram feat
    simp only [Matrix.mul_apply, Matrix.transpose_apply, Matrix.of_apply]
    refine sum_le fun k => ?_
    rw [abs_mul, sq]
    exact mul_le_mul (hfB k _) (hfB k _) (abs_nonneg _) ((abs_nonneg _).trans (hfB k (x i)))
  have hB : ∀ {p r : Nat}, p ≤ r → (p : ℝ) * B ^ 2 ≤ r * B ^ 2 := fun hpr => by
    have : (_ : ℝ) ≤ _ := Nat.cast_le (α := ℝ).2 hpr
    gcongr
  have hm := (c184_mean hN mX mY h1 h2 (hk hf) (hk hg) (hs f) (hs g) (C := (max p q : ℕ) * B ^ 2) (fun x i j => (hb hfB x i j).trans (hB (le_max_left p q)))
    (fun y i j => (hb hgB y i j).trans (hB (le_max_right p q))) fun σ y i j => rfl).2
  have hv : ∀ ω, ∃ v, vStatRff (feat f (upto X N ω)) (feat g (upto Y N ω)) = some v ∧ vStat (gram (feat f (upto X N ω))) (gram (feat g (upto Y N ω))) = N ^ 2 * v := fun ω => by
    obtain ⟨v, a, b, -⟩ := c145_features (show 0 < N by omega) (feat f (upto X N ω)) (feat g (upto Y N ω))
    exact ⟨v, a, b⟩
  choose v hv1 hv2 using hv
  refine ⟨fun ω => (N : ℝ) * v ω, fun ω draws => ?_, ?_⟩
  · rw [← share_count]
    unfold spectralTestRff withShufflesRff
    simp only [Bool.false_eq_true, if_false, hv1]
    rfl
  have hp : ∀ {p : Nat} (a : Matrix (Fin N) (Fin p) ℝ), (ev p (cov a)).sum = (cov a).trace := fun a => (eigvals_ok hev (cov_psd (by omega) a)).2.2.1
  have e1 : ∀ ω, (cov (feat f (upto X N ω))).trace * (cov (feat g (upto Y N ω))).trace =
      (centerKernelMatrix (gram (feat f (upto X N ω)))).trace * (centerKernelMatrix (gram (feat g (upto Y N ω)))).trace / ((N : ℝ) - 1) ^ 2 := fun ω => by
    have : (N : ℝ) - 1 ≠ 0 := by linarith
    rw [cov_tr hN, cov_tr hN]
    field_simp
  have e2 : ∀ ω, (N : ℝ) * v ω = vStat (gram (feat f (upto X N ω))) (gram (feat g (upto Y N ω))) / N := fun ω => by
    have : (N : ℝ) ≠ 0 := by linarith
    rw [hv2]
    field_simp
  simp only [(null_mean _ _ hz).2, hp, e1, e2]
  rw [integral_div, integral_div, hm]
  have a1 : (N : ℝ) - 1 ≠ 0 := by linarith
  have a2 : (N : ℝ) ≠ 0 := by linarith
  field_simp

theorem standardise_meas (i : Fin n) (k : Fin d) : Measurable fun X : Data n d => standardise X i k := by
  unfold standardise zscore
  by_cases hn : n ≤ 1
  · simp only [hn, true_or, if_true, Option.getD_none]
    exact measurable_const
  · have hm : Measurable fun X : Data n d => KTest.mean fun i => X i k := by unfold KTest.mean; fun_prop
    have hd : Measurable fun X : Data n d => devs fun i => X i k := by unfold devs; fun_prop
    have h1 : (fun X : Data n d => (if n ≤ 1 ∨ devs (fun i => X i k) = 0 then none
        else some ((X i k - KTest.mean fun i => X i k) / Real.sqrt (devs (fun i => X i k) / ((n : ℝ) - 1)))).getD 0) =
        fun X => if devs (fun i => X i k) = 0 then 0 else (X i k - KTest.mean fun i => X i k) / Real.sqrt (devs (fun i => X i k) / ((n : ℝ) - 1)) := by
      funext X
      simp only [hn, false_or]
      split <;> rfl
    rw [h1]
    refine Measurable.ite (hd (measurableSet_singleton 0)) measurable_const ?_
    fun_prop

theorem trace_zero {K : Mat n} (h : ∑ i, ∑ j, K i j ^ 2 = 0) : K.trace = 0 := by
  have h1 := (Finset.sum_eq_zero_iff_of_nonneg fun i _ => Finset.sum_nonneg fun j _ => sq_nonneg (K i j)).1 h
  refine Finset.sum_eq_zero fun i hi => ?_
  have h2 := (Finset.sum_eq_zero_iff_of_nonneg fun j _ => sq_nonneg (K i j)).1 (h1 i hi) i (Finset.mem_univ i)
  exact pow_eq_zero_iff (two_ne_zero) |>.1 h2

/-- The gamma distribution of the p-value has the mean `meanApprox`; without a p-value, `meanApprox` is 0. -/
theorem gamma_mean (cdf : ℝ → ℝ → ℝ → ℝ) (K L : Mat n) (s : ℝ) : (gammaPvalue cdf K L s = none → meanApprox K L = 0) ∧
    ∀ pv, gammaPvalue cdf K L s = some pv → ∃ k θ, pv = 1 - cdf s k θ ∧ k * θ = meanApprox K L := by
  unfold gammaPvalue
  simp only
  split
  · rename_i h
    refine ⟨fun _ => ?_, fun pv hp => by simp at hp⟩
    rcases h with h | h
    · unfold varApprox at h
      unfold meanApprox
      rcases div_eq_zero_iff.1 h with h | h
      · rcases mul_eq_zero.1 h with h | h
        · rw [trace_zero (by linarith), zero_mul, zero_div]
        · rw [trace_zero h, mul_zero, zero_div]
      · rw [pow_eq_zero_iff two_ne_zero] at h
        rw [h, div_zero]
    · exact h
  · rename_i h
    push Not at h
    refine ⟨fun hp => by simp at hp, fun pv hp => ⟨_, _, (Option.some.inj hp).symm, ?_⟩⟩
    have := h.1
    have := h.2
    field_simp

/-- C184. The unconditional kernel test of kernel_based.py. The mean of the gamma distribution from which the p-value comes is `μ`. -/
theorem c184_kernel (cdf : ℝ → ℝ → ℝ → ℝ) {wx wy : ℝ} (hwx : 0 < wx) (hwy : 0 < wy) {X : ℕ → Ω → Fin d → ℝ} {Y : ℕ → Ω → Fin e → ℝ} (h : DrawnPairs P X Y)
    (hi : IndepFun (X 0) (Y 0) P) {N : ℕ} (hN : 2 ≤ N) :
    ∃ μ : Ω → ℝ, (∀ ω, (ukciTest cdf wx wy (upto X N ω) (upto Y N ω)).1 = none → μ ω = 0) ∧
      (∀ ω pv, (ukciTest cdf wx wy (upto X N ω) (upto Y N ω)).1 = some pv → ∃ k θ, pv = 1 - cdf (ukciTest cdf wx wy (upto X N ω) (upto Y N ω)).2 k θ ∧ k * θ = μ ω) ∧
      ∫ ω, (ukciTest cdf wx wy (upto X N ω) (upto Y N ω)).2 ∂P = (N : ℝ) / ((N : ℝ) - 1) * ∫ ω, μ ω ∂P := by
  have hN' : (2 : ℝ) ≤ N := by exact_mod_cast hN
  obtain ⟨mX, mY, h1, h2⟩ := drawn_exchange h hi N
  have hk : ∀ {d : Nat} (w : ℝ) (i j : Fin N), Measurable fun x : Data N d => gaussianWidth w (standardise x) i j := fun {d} w i j => by
    have := fun (i : Fin N) (k : Fin d) => standardise_meas i k
    unfold gaussianWidth sqDist
    fun_prop
  have hs : ∀ {d : Nat} (w : ℝ) (x : Data N d), (gaussianWidth w x).IsSymm := fun w x => by ext i j; exact gaussianWidth_symm w _ j i
  have hm := (c184_mean hN mX mY h1 h2 (hk wx) (hk wy) (fun x => hs wx _) (fun y => hs wy _) (C := 1) (fun x => gaussianWidth_le wx hwx.le _) (fun y => gaussianWidth_le wy hwy.le _)
    fun σ y i j => by
      unfold gaussianWidth sqDist
      simp only [standardise_perm y σ]).2
  refine ⟨fun ω => meanApprox (centerKernelMatrix (gaussianWidth wx (standardise (upto X N ω)))) (centerKernelMatrix (gaussianWidth wy (standardise (upto Y N ω)))),
    fun ω => (gamma_mean cdf _ _ _).1, fun ω => (gamma_mean cdf _ _ _).2, ?_⟩
  unfold meanApprox
  rw [integral_div]
  have e1 : (N : ℝ) / ((N : ℝ) - 1) * ((∫ ω, (centerKernelMatrix (gaussianWidth wx (standardise (upto X N ω)))).trace *
      (centerKernelMatrix (gaussianWidth wy (standardise (upto Y N ω)))).trace ∂P) / N) = (∫ ω, (centerKernelMatrix (gaussianWidth wx (standardise (upto X N ω)))).trace *
      (centerKernelMatrix (gaussianWidth wy (standardise (upto Y N ω)))).trace ∂P) / ((N : ℝ) - 1) := by
    have : (N : ℝ) ≠ 0 := by linarith
    field_simp
  rw [e1, ← hm]
  rfl

theorem kci_eq (cdf : ℝ → ℝ → ℝ → ℝ) (X : Data n d) (Y : Data n e) : kciTest cdf X Y = ukciTest cdf 1 1 X Y := by
  have h : ∀ {d : Nat} (X : Data n d), center (gaussianKernel X) = centerKernelMatrix (gaussianWidth 1 X) := fun X => by
    rw [centerKernelMatrix_eq fun i j => gaussianWidth_symm 1 X i j]
    congr 1
    ext i j
    simp [gaussianKernel, gaussianWidth]
  unfold kciTest ukciTest
  simp only [h]

/-- C184. The same for the unconditional test of kci.py. -/
theorem c184_kci (cdf : ℝ → ℝ → ℝ → ℝ) {X : ℕ → Ω → Fin d → ℝ} {Y : ℕ → Ω → Fin e → ℝ} (h : DrawnPairs P X Y) (hi : IndepFun (X 0) (Y 0) P) {N : ℕ} (hN : 2 ≤ N) :
    ∃ μ : Ω → ℝ, (∀ ω, (kciTest cdf (upto X N ω) (upto Y N ω)).1 = none → μ ω = 0) ∧
      (∀ ω pv, (kciTest cdf (upto X N ω) (upto Y N ω)).1 = some pv → ∃ k θ, pv = 1 - cdf (kciTest cdf (upto X N ω) (upto Y N ω)).2 k θ ∧ k * θ = μ ω) ∧
      ∫ ω, (kciTest cdf (upto X N ω) (upto Y N ω)).2 ∂P = (N : ℝ) / ((N : ℝ) - 1) * ∫ ω, μ ω ∂P := by
  simp only [kci_eq]
  exact c184_kernel cdf one_pos one_pos h hi hN

theorem tr_mu (hn : 2 ≤ n) {K : Mat n} (h1 : ∀ i, K i i = 1) : (centerKernelMatrix K).trace = ((n : ℝ) - 1) * (1 - KTest.mu K) := by
  have hn' : (2 : ℝ) ≤ n := by exact_mod_cast hn
  have a1 : (n : ℝ) - 1 ≠ 0 := by linarith
  have a2 : (n : ℝ) ≠ 0 := by linarith
  obtain ⟨S, hS⟩ : ∃ S, S = ∑ i, ∑ j, K i j := ⟨_, rfl⟩
  have hcs : ∑ i, colSums K i = S := by
    unfold colSums
    rw [hS]
    exact Finset.sum_comm
  have hv : vecSum (colSums K) = S := hcs
  have ht : (centerKernelMatrix K).trace = n - S / n := by
    have : (centerKernelMatrix K).trace = ∑ i, (K i i - (colSums K i + colSums K i) / n + vecSum (colSums K) / (n : ℝ) ^ 2) := rfl
    rw [this, Finset.sum_add_distrib, Finset.sum_sub_distrib, ← Finset.sum_div, Finset.sum_add_distrib, hcs, hv]
    simp only [h1, Finset.sum_const, Finset.card_univ, Fintype.card_fin, nsmul_eq_mul]
    field_simp
    ring
  have ho : (∑ i, ∑ j, if i = j then 0 else K i j) = S - n := by
    have : ∀ i j, (if i = j then 0 else K i j) = K i j - if i = j then 1 else 0 := fun i j => by
      split
      · rename_i hij; subst hij; rw [h1, sub_self]
      · rw [sub_zero]
    simp only [this, Finset.sum_sub_distrib, Finset.sum_ite_eq, Finset.mem_univ, if_true, Finset.sum_const, Finset.card_univ, Fintype.card_fin, nsmul_eq_mul, mul_one, hS]
  rw [ht]
  unfold KTest.mu
  rw [ho]
  field_simp
  ring

/-- The kernel with the median width, and ones if all rows are equal. -/
noncomputable def medKernel (X : Data n d) : Mat n := expMat X (AnmDrawn.med (sqDist X))

theorem medKernel_cases (X : Data n d) : kernelOf X = some (medKernel X) ∨ kernelOf X = none ∧ medKernel X = Matrix.of fun _ _ => 1 := by
  rw [kernelOf_eq]
  unfold medKernel AnmDrawn.med
  cases hm : median (upper (sqDist X)) with
  | none =>
    right
    refine ⟨rfl, ?_⟩
    ext i j
    simp [expMat]
  | some m => left; rfl

theorem ones_center (hn : n ≠ 0) : centerKernelMatrix (Matrix.of fun _ _ => 1 : Mat n) = 0 := by
  have : (n : ℝ) ≠ 0 := by exact_mod_cast hn
  ext i j
  simp only [centerKernelMatrix, vecSum, colSums, Matrix.of_apply, Matrix.zero_apply, Finset.sum_const, Finset.card_univ, Fintype.card_fin, nsmul_eq_mul]
  field_simp
  ring

/-- C184. The test of HSIC.py. The mean of the gamma distribution whose quantile is the threshold is `μ`. -/
theorem c184_hsic (ppf : ℝ → ℝ → ℝ → Option ℝ) (alpha : ℝ) {X : ℕ → Ω → Fin d → ℝ} {Y : ℕ → Ω → Fin e → ℝ} (h : DrawnPairs P X Y) (hi : IndepFun (X 0) (Y 0) P)
    {N : ℕ} (hN : 2 ≤ N) :
    ∃ μ : Ω → ℝ, (∀ ω, (hsicGam ppf alpha (upto X N ω) (upto Y N ω)).1 = none → μ ω = 0) ∧
      (∀ ω t, (hsicGam ppf alpha (upto X N ω) (upto Y N ω)).2 = some t → ∃ k θ, ppf (1 - alpha) k θ = some t ∧ k * θ = μ ω) ∧
      ∫ ω, ((hsicGam ppf alpha (upto X N ω) (upto Y N ω)).1).getD 0 ∂P = ((N : ℝ) - 1) / N * ∫ ω, μ ω ∂P := by
  have hN' : (2 : ℝ) ≤ N := by exact_mod_cast hN
  have a1 : (N : ℝ) - 1 ≠ 0 := by linarith
  have a2 : (N : ℝ) ≠ 0 := by linarith
  obtain ⟨mX, mY, h1, h2⟩ := drawn_exchange h hi N
  have hk : ∀ {d : Nat} (i j : Fin N), Measurable fun x : Data N d => medKernel x i j := fun {d} i j => by
    have hm : Measurable fun x : Data N d => AnmDrawn.med (sqDist x) := AnmDrawn.med_meas.comp (measurable_pi_lambda _ fun i => measurable_pi_lambda _ fun j => by
      unfold sqDist
      fun_prop)
    have hd : Measurable fun x : Data N d => sqDist x i j := by unfold sqDist; fun_prop
    unfold medKernel expMat
    simp only [Matrix.of_apply]
    fun_prop
  have hs : ∀ {d : Nat} (x : Data N d), (medKernel x).IsSymm := fun x => by
    ext i j
    simp only [medKernel, expMat, Matrix.transpose_apply, Matrix.of_apply, sqDist_comm x j i]
  have hd : ∀ {d : Nat} (x : Data N d) i, medKernel x i i = 1 := fun x i => by
    simp [medKernel, expMat, sqDist]
  have hb : ∀ {d : Nat} (x : Data N d) i j, |medKernel x i j| ≤ 1 := fun x i j => by
    rcases medKernel_cases x with hc | hc
    · have := (kernelOf_some hc).2
      rw [kernelOf_eq] at hc
      cases hm : median (upper (sqDist x)) with
      | none => rw [hm] at hc; simp at hc
      | some m =>
        have hp := median_pos (fun x hx => (mem_upper.1 hx).1) hm
        have hq := sqDist_nonneg x i j
        simp only [medKernel, AnmDrawn.med, hm, expMat, Option.getD_some, Matrix.of_apply]
        rw [abs_of_pos (Real.exp_pos _), Real.exp_le_one_iff]
        have : 0 ≤ m⁻¹ * sqDist x i j := by positivity
        linarith
    · rw [hc.2]
      simp
  have hm := (c184_mean hN mX mY h1 h2 hk hk hs hs (C := 1) hb hb fun σ y i j => by
    have e : AnmDrawn.med (sqDist fun i => y (σ i)) = AnmDrawn.med (sqDist y) := by
      unfold AnmDrawn.med
      rw [show sqDist (fun i => y (σ i)) = fun i j => sqDist y (σ i) (σ j) from rfl, median_perm (upper_perm (sqDist y) (sqDist_comm y) σ)]
    unfold medKernel
    rw [e]
    rfl).2
  have hc : ∀ {d : Nat} (x : Data N d), center (medKernel x) = centerKernelMatrix (medKernel x) := fun x => (centerKernelMatrix_eq fun i j => (hs x).apply j i).symm
  have hst : ∀ ω, ((hsicGam ppf alpha (upto X N ω) (upto Y N ω)).1).getD 0 = vStat (medKernel (upto X N ω)) (medKernel (upto Y N ω)) / N := fun ω => by
    rw [hsicGam_eq]
    rcases medKernel_cases (upto X N ω) with hx | ⟨hx, hx1⟩
    · rcases medKernel_cases (upto Y N ω) with hy | ⟨hy, hy1⟩
      · rw [hx, hy]
        simp only [gamOf, Option.getD_some, hc]
        unfold KTest.statOf vStat
        congr 1
        exact Finset.sum_congr rfl fun i _ => Finset.sum_congr rfl fun j _ => by rw [symm_matrix (hs (upto X N ω)) i j]
      · rw [hx, hy]
        unfold vStat
        rw [hy1, ones_center (by omega)]
        simp [gamOf]
    · rw [hx]
      unfold vStat
      rw [hx1, ones_center (by omega)]
      simp [gamOf]
  have hmu : KTest.mu (Matrix.of fun _ _ => 1 : Mat N) = 1 := by
    have := tr_mu hN (K := Matrix.of fun _ _ => 1) fun i => rfl
    rw [ones_center (by omega), Matrix.trace_zero] at this
    rcases mul_eq_zero.1 this.symm with h0 | h0
    · exact absurd h0 a1
    · linarith
  refine ⟨fun ω => N * meanHsic (medKernel (upto X N ω)) (medKernel (upto Y N ω)), fun ω hn => ?_, fun ω t ht => ?_, ?_⟩
  · rw [hsicGam_eq] at hn
    change (N : ℝ) * ((1 + KTest.mu (medKernel (upto X N ω)) * KTest.mu (medKernel (upto Y N ω)) - KTest.mu (medKernel (upto X N ω)) - KTest.mu (medKernel (upto Y N ω))) / N) = 0
    rcases medKernel_cases (upto X N ω) with hx | ⟨hx, hx1⟩
    · rcases medKernel_cases (upto Y N ω) with hy | ⟨hy, hy1⟩
      · rw [hx, hy] at hn
        simp [gamOf] at hn
      · rw [hy1, hmu]
        simp
    · rw [hx1, hmu]
      simp
  · rw [hsicGam_eq] at ht
    rcases medKernel_cases (upto X N ω) with hx | ⟨hx, hx1⟩
    · rcases medKernel_cases (upto Y N ω) with hy | ⟨hy, hy1⟩
      · rw [hx, hy] at ht
        simp only [gamOf] at ht
        split at ht
        · simp at ht
        · split at ht
          · simp at ht
          · rename_i h0
            push Not at h0
            refine ⟨_, _, ht, ?_⟩
            have := h0.1
            have := h0.2
            field_simp
      · rw [hx, hy] at ht
        simp [gamOf] at ht
    · rw [hx] at ht
      simp [gamOf] at ht
  · simp only [hst]
    rw [integral_div, hm]
    have e : ∀ ω, (N : ℝ) * meanHsic (medKernel (upto X N ω)) (medKernel (upto Y N ω)) =
        (centerKernelMatrix (medKernel (upto X N ω))).trace * (centerKernelMatrix (medKernel (upto Y N ω))).trace / ((N : ℝ) - 1) ^ 2 := fun ω => by
      rw [tr_mu hN (hd _), tr_mu hN (hd _)]
      unfold meanHsic
      field_simp
      ring
    simp only [e]
    rw [integral_div]
    field_simp

section examples

/-- Independent standard normal variables meet the hypotheses, here with 100 records. -/
example : ∃ (Ω Ω' : Type) (_ : MeasurableSpace Ω) (_ : MeasurableSpace Ω') (P : Measure Ω) (Q : Measure Ω') (X Y : ℕ → Ω → Fin 1 → ℝ) (z : Ω' → ℕ → ℕ → ℝ) (s : Ω → ℝ),
    (∀ ω, spectralTest (stdVals 100) false [] (gaussianWidth 1 (upto X 100 ω)) (gaussianWidth 2 (upto Y 100 ω)) = 1) ∧ ∫ ω, s ω ∂P = 100 / 99 *
      ∫ ω, ∫ ω', nullSample false (stdVals 100 (centerKernelMatrix (gaussianWidth 1 (upto X 100 ω)))) (stdVals 100 (centerKernelMatrix (gaussianWidth 2 (upto Y 100 ω)))) (z ω') ∂Q ∂P := by
  obtain ⟨Ω, mΩ, P, hP, X, Y, h, hi⟩ := exFree
  obtain ⟨Ω', mΩ', Q, hQ, z, hz⟩ := exDraws
  obtain ⟨s, a, b⟩ := c184_spectral stdVals_correct one_pos two_pos h hi (hz 0) (N := 100) (by norm_num)
  norm_num at b
  exact ⟨Ω, Ω', mΩ, mΩ', P, Q, X, Y, z 0, s, fun ω => by rw [a]; simp, b⟩

example (cdf : ℝ → ℝ → ℝ → ℝ) : ∃ (Ω : Type) (_ : MeasurableSpace Ω) (P : Measure Ω) (X Y : ℕ → Ω → Fin 1 → ℝ) (μ : Ω → ℝ),
    (∀ ω pv, (ukciTest cdf 1 2 (upto X 100 ω) (upto Y 100 ω)).1 = some pv → ∃ k θ, pv = 1 - cdf (ukciTest cdf 1 2 (upto X 100 ω) (upto Y 100 ω)).2 k θ ∧ k * θ = μ ω) ∧
      ∫ ω, (ukciTest cdf 1 2 (upto X 100 ω) (upto Y 100 ω)).2 ∂P = 100 / 99 * ∫ ω, μ ω ∂P := by
  obtain ⟨Ω, mΩ, P, hP, X, Y, h, hi⟩ := exFree
  obtain ⟨μ, -, a, b⟩ := c184_kernel cdf one_pos two_pos h hi (N := 100) (by norm_num)
  norm_num at b
  exact ⟨Ω, mΩ, P, X, Y, μ, a, b⟩

example (cdf : ℝ → ℝ → ℝ → ℝ) : ∃ (Ω : Type) (_ : MeasurableSpace Ω) (P : Measure Ω) (X Y : ℕ → Ω → Fin 1 → ℝ) (μ : Ω → ℝ),
    ∫ ω, (kciTest cdf (upto X 100 ω) (upto Y 100 ω)).2 ∂P = 100 / 99 * ∫ ω, μ ω ∂P ∧
    ∀ ω pv, (kciTest cdf (upto X 100 ω) (upto Y 100 ω)).1 = some pv → ∃ k θ, pv = 1 - cdf (kciTest cdf (upto X 100 ω) (upto Y 100 ω)).2 k θ ∧ k * θ = μ ω := by
  obtain ⟨Ω, mΩ, P, hP, X, Y, h, hi⟩ := exFree
  obtain ⟨μ, -, a, b⟩ := c184_kci cdf h hi (N := 100) (by norm_num)
  norm_num at b
  exact ⟨Ω, mΩ, P, X, Y, μ, b, a⟩

/-- Two records of independent standard normal variables, to which `c184_mean` applies through `drawn_exchange`. -/
example : ∃ (Ω : Type) (_ : MeasurableSpace Ω) (P : Measure Ω) (X Y : Ω → Data 2 1),
    ∫ ω, vStat (gaussianWidth 1 (X ω)) (gaussianWidth 1 (Y ω)) ∂P =
      (∫ ω, (centerKernelMatrix (gaussianWidth 1 (X ω))).trace * (centerKernelMatrix (gaussianWidth 1 (Y ω))).trace ∂P) / (2 - 1) := by
  obtain ⟨Ω, mΩ, P, hP, X, Y, h, hi⟩ := exFree
  obtain ⟨mX, mY, h1, h2⟩ := drawn_exchange h hi 2
  have hk : ∀ (i j : Fin 2), Measurable fun x : Data 2 1 => gaussianWidth 1 x i j := fun i j => by
    unfold gaussianWidth sqDist
    fun_prop
  have hs : ∀ (x : Data 2 1), (gaussianWidth 1 x).IsSymm := fun x => by ext i j; exact gaussianWidth_symm 1 _ j i
  exact ⟨Ω, mΩ, P, _, _, (c184_mean le_rfl mX mY h1 h2 hk hk hs hs (C := 1) (fun x => gaussianWidth_le 1 zero_le_one x) (fun y => gaussianWidth_le 1 zero_le_one y) fun σ y i j => rfl).2⟩

example (ppf : ℝ → ℝ → ℝ → Option ℝ) : ∃ (Ω : Type) (_ : MeasurableSpace Ω) (P : Measure Ω) (X Y : ℕ → Ω → Fin 1 → ℝ) (μ : Ω → ℝ),
    (∀ ω t, (hsicGam ppf (1 / 20) (upto X 100 ω) (upto Y 100 ω)).2 = some t → ∃ k θ, ppf (1 - 1 / 20) k θ = some t ∧ k * θ = μ ω) ∧
      ∫ ω, ((hsicGam ppf (1 / 20) (upto X 100 ω) (upto Y 100 ω)).1).getD 0 ∂P = (100 - 1) / 100 * ∫ ω, μ ω ∂P := by
  obtain ⟨Ω, mΩ, P, hP, X, Y, h, hi⟩ := exFree
  obtain ⟨μ, -, a, b⟩ := c184_hsic ppf (1 / 20) h hi (N := 100) (by norm_num)
  push_cast at b
  exact ⟨Ω, mΩ, P, X, Y, μ, a, b⟩

/-- A cosine and a sine as features. -/
example : ∃ (Ω Ω' : Type) (_ : MeasurableSpace Ω) (_ : MeasurableSpace Ω') (P : Measure Ω) (Q : Measure Ω') (X Y : ℕ → Ω → Fin 1 → ℝ) (z : Ω' → ℕ → ℕ → ℝ) (s : Ω → ℝ)
    (f : Fin 2 → (Fin 1 → ℝ) → ℝ), (∀ ω, spectralTestRff stdVals false [] (feat f (upto X 100 ω)) (feat f (upto Y 100 ω)) = .ok 1) ∧
    ∫ ω, s ω ∂P = (((100 : ℕ) : ℝ) - 1) / ((100 : ℕ) : ℝ) *
        ∫ ω, ∫ ω', nullSample false (stdVals 2 (cov (feat f (upto X 100 ω)))) (stdVals 2 (cov (feat f (upto Y 100 ω)))) (z ω') ∂Q ∂P := by
  obtain ⟨Ω, mΩ, P, hP, X, Y, h, hi⟩ := exFree
  obtain ⟨Ω', mΩ', Q, hQ, z, hz⟩ := exDraws
  have hw := waves_meas (d := 1) (h := 1) 1 fun _ _ => 1
  obtain ⟨s, a, b⟩ := c184_features stdVals_correct (fun k => (hw k).1) (fun k => (hw k).1) (B := |1|) (fun k x => (hw k).2 x) (fun k x => (hw k).2 x) h hi (hz 0) (N := 100) (by norm_num)
  exact ⟨Ω, Ω', mΩ, mΩ', P, Q, X, Y, z 0, s, _, fun ω => by rw [a]; simp, b⟩

end examples

end Cdmir.NullMean
