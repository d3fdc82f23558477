import Verif.Lemmas.KernelLimit
import Verif.Model.HsicTest
import Verif.Model.KernelWidth
import Verif.Props.Consistency
import Mathlib.Probability.Distributions.Gamma
import Mathlib.Probability.Moments.Variance

/-! C178: the kernel tests with Gaussian kernels on drawn records. The statistic over the squared number of records tends to a number that is zero exactly
if the two variables are independent, and every dependence is found with enough records. -/

namespace Cdmir.KTest
open BigOperators

variable {n d e : Nat}

section near

theorem exp_near {a b Q c : ℝ} (hQ : 0 ≤ Q) (ha : Q / 4 ≤ a) (hb : Q / 4 ≤ b) (hc : 0 ≤ c) (h : |a - b| ≤ c * (Q / 4)) : |Real.exp (-a) - Real.exp (-b)| ≤ c := by
  have key : ∀ a b : ℝ, Q / 4 ≤ a → a ≤ b → b - a ≤ c * (Q / 4) → |Real.exp (-a) - Real.exp (-b)| ≤ c := by
    intro a b ha hab h
    have h1 : Real.exp (-b) = Real.exp (-a) * Real.exp (-(b - a)) := by rw [← Real.exp_add]; congr 1; ring
    have h2 : 1 - (b - a) ≤ Real.exp (-(b - a)) := by linarith [Real.add_one_le_exp (-(b - a))]
    have h3 : Real.exp (-(b - a)) ≤ 1 := Real.exp_le_one_iff.2 (by linarith)
    have h4 : Real.exp (-a) ≤ Real.exp (-(Q / 4)) := Real.exp_le_exp.2 (by linarith)
    have h5 : Q / 4 * Real.exp (-(Q / 4)) ≤ 1 := by
      have := Real.add_one_le_exp (Q / 4)
      rw [Real.exp_neg, ← div_eq_mul_inv, div_le_one (Real.exp_pos _)]
      linarith
    rw [h1, abs_of_nonneg (by nlinarith [Real.exp_pos (-a)])]
    have h6 : Real.exp (-a) - Real.exp (-a) * Real.exp (-(b - a)) ≤ Real.exp (-a) * (c * (Q / 4)) := by nlinarith [Real.exp_pos (-a)]
    have h7 : Real.exp (-a) * (c * (Q / 4)) ≤ Real.exp (-(Q / 4)) * (c * (Q / 4)) := mul_le_mul_of_nonneg_right h4 (by positivity)
    nlinarith
  rcases le_total a b with hab | hab
  · exact key a b ha hab (by rw [abs_sub_comm, abs_of_nonneg (by linarith)] at h; exact h)
  · rw [abs_sub_comm]
    exact key b a hb hab (by rw [abs_of_nonneg (by linarith)] at h; exact h)

theorem hMat_sum (i : Fin n) : ∑ j, |hMat n i j| ≤ 2 := by
  have hn : (0 : ℝ) < n := by exact_mod_cast i.pos
  have h : ∀ j, |hMat n i j| ≤ (if i = j then 1 else 0) + 1 / (n : ℝ) := fun j => by
    simp only [hMat, Matrix.sub_apply, Matrix.one_apply, Matrix.of_apply]
    refine (abs_sub _ _).trans ?_
    rw [abs_of_nonneg (a := 1 / (n : ℝ)) (by positivity)]
    split <;> simp
  refine (Finset.sum_le_sum fun j _ => h j).trans ?_
  rw [Finset.sum_add_distrib, Finset.sum_const, Finset.card_univ, Fintype.card_fin, nsmul_eq_mul, Finset.sum_ite_eq, if_pos (Finset.mem_univ i)]
  field_simp
  norm_num

theorem center_le {K : Matrix (Fin n) (Fin n) ℝ} {c : ℝ} (hc : 0 ≤ c) (h : ∀ i j, |K i j| ≤ c) (i j : Fin n) : |center K i j| ≤ 4 * c := by
  have h1 : ∀ b, |(hMat n * K) i b| ≤ 2 * c := fun b => by
    rw [Matrix.mul_apply]
    refine (Finset.abs_sum_le_sum_abs _ _).trans ?_
    calc ∑ a, |hMat n i a * K a b| ≤ ∑ a, |hMat n i a| * c := Finset.sum_le_sum fun a _ => by
          rw [abs_mul]; exact mul_le_mul_of_nonneg_left (h a b) (abs_nonneg _)
      _ = (∑ a, |hMat n i a|) * c := (Finset.sum_mul ..).symm
      _ ≤ 2 * c := mul_le_mul_of_nonneg_right (hMat_sum i) hc
  unfold center
  rw [Matrix.mul_apply]
  refine (Finset.abs_sum_le_sum_abs _ _).trans ?_
  calc ∑ b, |(hMat n * K) i b * hMat n b j| ≤ ∑ b, 2 * c * |hMat n j b| := Finset.sum_le_sum fun b _ => by
        rw [abs_mul, hMat_symm b j]; exact mul_le_mul_of_nonneg_right (h1 b) (abs_nonneg _)
    _ = 2 * c * ∑ b, |hMat n j b| := (Finset.mul_sum ..).symm
    _ ≤ 4 * c := by nlinarith [hMat_sum j]

theorem center_sub (K L : Matrix (Fin n) (Fin n) ℝ) : center (K - L) = center K - center L := by
  unfold center
  rw [Matrix.mul_sub, Matrix.sub_mul]

theorem stat_near {K K' L L' : Matrix (Fin n) (Fin n) ℝ} {c : ℝ} (hc : 0 ≤ c) (hK : ∀ i j, |K i j - K' i j| ≤ c) (hL : ∀ i j, |L i j - L' i j| ≤ c)
    (hK' : ∀ i j, |K' i j| ≤ 1) (hL1 : ∀ i j, |L i j| ≤ 1) :
    |hsicStat (center K) (center L) - hsicStat (center K') (center L')| ≤ 32 * c * (n : ℝ) ^ 2 := by
  unfold hsicStat
  rw [← Finset.sum_sub_distrib]
  simp only [← Finset.sum_sub_distrib]
  have h : ∀ i j, |center K i j * center L i j - center K' i j * center L' i j| ≤ 32 * c := fun i j => by
    have h1 := center_le hc (K := K - K') hK i j
    have h2 := center_le hc (K := L - L') hL i j
    have h3 := center_le zero_le_one hK' i j
    have h4 := center_le zero_le_one hL1 i j
    rw [center_sub, Matrix.sub_apply] at h1 h2
    have : center K i j * center L i j - center K' i j * center L' i j = (center K i j - center K' i j) * center L i j + center K' i j * (center L i j - center L' i j) := by ring
    rw [this]
    refine (abs_add_le _ _).trans ?_
    rw [abs_mul, abs_mul]
    have h5 := mul_le_mul h1 h4 (abs_nonneg _) (by positivity)
    have h6 := mul_le_mul h3 h2 (abs_nonneg _) (by norm_num)
    linarith
  calc |∑ i, ∑ j, (center K i j * center L i j - center K' i j * center L' i j)|
      ≤ ∑ i, ∑ j, |center K i j * center L i j - center K' i j * center L' i j| :=
        (Finset.abs_sum_le_sum_abs _ _).trans (Finset.sum_le_sum fun i _ => Finset.abs_sum_le_sum_abs _ _)
    _ ≤ ∑ _i : Fin n, ∑ _j : Fin n, 32 * c := Finset.sum_le_sum fun i _ => Finset.sum_le_sum fun j _ => h i j
    _ = 32 * c * (n : ℝ) ^ 2 := by
        simp only [Finset.sum_const, Finset.card_univ, Fintype.card_fin, nsmul_eq_mul]
        ring

theorem gaussianWidth_le (w : ℝ) (hw : 0 ≤ w) (X : Data n d) (i j : Fin n) : |gaussianWidth w X i j| ≤ 1 := by
  unfold gaussianWidth
  rw [abs_of_pos (Real.exp_pos _), Real.exp_le_one_iff]
  have : 0 ≤ sqDist X i j := Finset.sum_nonneg fun k _ => sq_nonneg _
  nlinarith [mul_nonneg this hw]

/-- Standardised data have nearly the kernel of the data divided by the true standard deviations. -/
theorem kernel_near {w : ℝ} (hw : 0 < w) (X : Data n d) {v : Fin d → ℝ} (hv : ∀ k, 0 < v k) {η : ℝ} (hη : 0 < η) (hη' : η ≤ 1 / 2) (hn : 1 < n)
    (h : ∀ k, 0 < devs (fun i => X i k) ∧ |v k / (devs (fun i => X i k) / ((n : ℝ) - 1)) - 1| ≤ η) (i j : Fin n) :
    |gaussianWidth w (standardise X) i j - gaussianKernel (fun i k => √w / √(v k) * X i k) i j| ≤ 2 * η := by
  have hn' : (0 : ℝ) < (n : ℝ) - 1 := by
    have : (1 : ℝ) < n := by exact_mod_cast hn
    linarith
  obtain ⟨Q, hQ⟩ : ∃ Q, Q = w * ∑ k, (X i k - X j k) ^ 2 / v k := ⟨_, rfl⟩
  have hQ0 : 0 ≤ Q := by
    rw [hQ]
    exact mul_nonneg hw.le (Finset.sum_nonneg fun k _ => div_nonneg (sq_nonneg _) (hv k).le)
  obtain ⟨r, hr⟩ : ∃ r, r = w * ∑ k, (X i k - X j k) ^ 2 / v k * (v k / (devs (fun i => X i k) / ((n : ℝ) - 1))) := ⟨_, rfl⟩
  have hrQ : |r - Q| ≤ η * Q := by
    rw [hr, hQ, ← mul_sub, ← Finset.sum_sub_distrib, abs_mul, abs_of_pos hw, mul_left_comm]
    refine mul_le_mul_of_nonneg_left ?_ hw.le
    refine (Finset.abs_sum_le_sum_abs _ _).trans ?_
    rw [Finset.mul_sum]
    refine Finset.sum_le_sum fun k _ => ?_
    have h0 : 0 ≤ (X i k - X j k) ^ 2 / v k := div_nonneg (sq_nonneg _) (hv k).le
    have e : (X i k - X j k) ^ 2 / v k * (v k / (devs (fun i => X i k) / ((n : ℝ) - 1))) - (X i k - X j k) ^ 2 / v k =
        (v k / (devs (fun i => X i k) / ((n : ℝ) - 1)) - 1) * ((X i k - X j k) ^ 2 / v k) := by ring
    rw [e, abs_mul, abs_of_nonneg h0]
    exact mul_le_mul_of_nonneg_right (h k).2 h0
  have h1 : gaussianWidth w (standardise X) i j = Real.exp (-(r / 2)) := by
    unfold gaussianWidth sqDist
    congr 1
    rw [hr]
    have : ∀ k, (standardise X i k - standardise X j k) ^ 2 = (X i k - X j k) ^ 2 / v k * (v k / (devs (fun i => X i k) / ((n : ℝ) - 1))) := fun k => by
      have hd := (h k).1
      simp only [standardise, zscore]
      rw [if_neg (by push Not; exact ⟨hn, hd.ne'⟩), if_neg (by push Not; exact ⟨hn, hd.ne'⟩)]
      simp only [Option.getD_some]
      rw [div_sub_div_same, div_pow, Real.sq_sqrt (div_nonneg hd.le hn'.le)]
      have := (hv k).ne'
      have := hd.ne'
      field_simp
      ring
    simp only [this]
    ring
  have h2 : gaussianKernel (fun i k => √w / √(v k) * X i k) i j = Real.exp (-(Q / 2)) := by
    unfold gaussianKernel sqDist
    congr 1
    rw [hQ, Finset.mul_sum, Finset.mul_sum, Finset.sum_div, ← Finset.sum_neg_distrib]
    refine Finset.sum_congr rfl fun k _ => ?_
    rw [← mul_sub, mul_pow, div_pow, Real.sq_sqrt hw.le, Real.sq_sqrt (hv k).le]
    ring
  rw [h1, h2]
  have h3 := abs_le.1 hrQ
  refine exp_near hQ0 (by nlinarith) (by nlinarith) (by positivity) ?_
  rw [← sub_div, abs_div, abs_of_pos (by norm_num : (0 : ℝ) < 2)]
  linarith

end near

open MeasureTheory ProbabilityTheory Filter
open scoped Topology

section drawn
variable {Ω : Type} [MeasurableSpace Ω] {P : Measure Ω} [IsProbabilityMeasure P]

/-- The first `N` records. -/
def upto (X : ℕ → Ω → Fin d → ℝ) (N : ℕ) (ω : Ω) : Data N d := fun s => X s ω

omit [IsProbabilityMeasure P] in
theorem DrawnPairs.map {X : ℕ → Ω → Fin d → ℝ} {Y : ℕ → Ω → Fin e → ℝ} (h : DrawnPairs P X Y) {d' e' : Nat} {f : (Fin d → ℝ) → Fin d' → ℝ} {g : (Fin e → ℝ) → Fin e' → ℝ}
    (hf : Measurable f) (hg : Measurable g) : DrawnPairs P (fun s ω => f (X s ω)) fun s ω => g (Y s ω) := by
  have hfg : Measurable fun z : (Fin d → ℝ) × (Fin e → ℝ) => (f z.1, g z.2) := by fun_prop
  exact ⟨fun s => hf.comp (h.measX s), fun s => hg.comp (h.measY s), h.indep.comp (fun _ z => (f z.1, g z.2)) fun _ => hfg, fun s => (h.ident s).comp hfg⟩

omit [IsProbabilityMeasure P] in
theorem DrawnPairs.swap {X : ℕ → Ω → Fin d → ℝ} {Y : ℕ → Ω → Fin e → ℝ} (h : DrawnPairs P X Y) : DrawnPairs P Y X :=
  ⟨h.measY, h.measX, h.indep.comp (fun _ z => (z.2, z.1)) fun _ => by fun_prop, fun s => (h.ident s).comp (by fun_prop : Measurable fun z : (Fin d → ℝ) × (Fin e → ℝ) => (z.2, z.1))⟩

theorem devs_eq (x : Fin n → ℝ) (hn : n ≠ 0) : devs x = ∑ i, x i ^ 2 - (∑ i, x i) ^ 2 / n := by
  have hn' : (n : ℝ) ≠ 0 := by exact_mod_cast hn
  unfold devs mean
  simp only [sub_sq, Finset.sum_add_distrib, Finset.sum_sub_distrib, ← Finset.sum_mul, ← Finset.mul_sum, Finset.sum_const, Finset.card_univ, Fintype.card_fin, nsmul_eq_mul]
  field_simp
  ring

/-- The sample variance tends to the variance with probability one. -/
theorem devs_limit {X : ℕ → Ω → Fin d → ℝ} {Y : ℕ → Ω → Fin e → ℝ} (h : DrawnPairs P X Y) (k : Fin d) (hm : MemLp (fun ω => X 0 ω k) 2 P) :
    ∀ᵐ ω ∂P, Tendsto (fun N : ℕ => devs (fun s => upto X N ω s k) / ((N : ℝ) - 1)) atTop (𝓝 Var[fun ω => X 0 ω k; P]) := by
  have hg : Measurable fun z : (Fin d → ℝ) × (Fin e → ℝ) => z.1 k := by fun_prop
  have l1 := strong_law_ae_real (fun s ω => X s ω k) (μ := P) (hm.integrable (by norm_num)) (fun i j hij => (h.indep.indepFun hij).comp hg hg) fun s => (h.ident s).comp hg
  have hg2 : Measurable fun z : (Fin d → ℝ) × (Fin e → ℝ) => z.1 k ^ 2 := by fun_prop
  have l2 := strong_law_ae_real (fun s ω => X s ω k ^ 2) (μ := P) hm.integrable_sq (fun i j hij => (h.indep.indepFun hij).comp hg2 hg2) fun s => (h.ident s).comp hg2
  filter_upwards [l1, l2] with ω h1 h2
  have h3 : Tendsto (fun N : ℕ => (N : ℝ) / ((N : ℝ) - 1)) atTop (𝓝 1) := by
    have : Tendsto (fun N : ℕ => 1 + 1 / ((N : ℝ) - 1)) atTop (𝓝 (1 + 0)) := by
      refine tendsto_const_nhds.add (Tendsto.const_div_atTop ?_ 1)
      exact tendsto_atTop_add_const_right _ (-1) tendsto_natCast_atTop_atTop
    rw [add_zero] at this
    refine this.congr' ?_
    filter_upwards [eventually_gt_atTop 1] with N hN
    have : (1 : ℝ) < N := by exact_mod_cast hN
    have : (N : ℝ) - 1 ≠ 0 := by linarith
    field_simp
    ring
  have h4 := h3.mul (h2.sub (h1.pow 2))
  rw [one_mul] at h4
  have hv : Var[fun ω => X 0 ω k; P] = (∫ ω, X 0 ω k ^ 2 ∂P) - (∫ ω, X 0 ω k ∂P) ^ 2 := by
    rw [variance_eq_sub hm]
    rfl
  rw [hv]
  refine h4.congr' ?_
  filter_upwards [eventually_gt_atTop 1] with N hN
  have h5 : (1 : ℝ) < N := by exact_mod_cast hN
  have h6 : (N : ℝ) - 1 ≠ 0 := by linarith
  have h7 : (N : ℝ) ≠ 0 := by linarith
  rw [devs_eq _ (by omega)]
  simp only [upto, Finset.sum_range]
  field_simp

/-- The hypotheses of C178 on the variables: finite variances that are not zero. -/
structure Scaled (P : Measure Ω) (X : Ω → Fin d → ℝ) : Prop where
  memLp : ∀ k, MemLp (fun ω => X ω k) 2 P
  pos : ∀ k, 0 < Var[fun ω => X ω k; P]

theorem kernel_near_drawn {X : ℕ → Ω → Fin d → ℝ} {Y : ℕ → Ω → Fin e → ℝ} (h : DrawnPairs P X Y) (hX : Scaled P (X 0)) {w : ℝ} (hw : 0 < w) :
    ∀ᵐ ω ∂P, ∀ c > 0, ∀ᶠ N in atTop, ∀ i j, |gaussianWidth w (standardise (upto X N ω)) i j -
      gaussianKernel (upto (fun s ω k => √w / √Var[fun ω => X 0 ω k; P] * X s ω k) N ω) i j| ≤ c := by
  have := ae_all_iff.2 fun k => devs_limit h k (hX.memLp k)
  filter_upwards [this] with ω hω c hc
  obtain ⟨η, hη⟩ : ∃ η, η = min (1 / 2) (c / 2) := ⟨_, rfl⟩
  have hη0 : 0 < η := by rw [hη]; exact lt_min (by norm_num) (by linarith)
  have h1 : ∀ k, ∀ᶠ N : ℕ in atTop, |Var[fun ω => X 0 ω k; P] / (devs (fun s => upto X N ω s k) / ((N : ℝ) - 1)) - 1| ≤ η := fun k => by
    have h2 : Tendsto (fun N : ℕ => Var[fun ω => X 0 ω k; P] / (devs (fun s => upto X N ω s k) / ((N : ℝ) - 1))) atTop (𝓝 (Var[fun ω => X 0 ω k; P] / Var[fun ω => X 0 ω k; P])) :=
      tendsto_const_nhds.div (hω k) (hX.pos k).ne'
    rw [div_self (hX.pos k).ne'] at h2
    filter_upwards [(Metric.tendsto_nhds.1 h2) η hη0] with N hN
    rw [Real.dist_eq] at hN
    exact hN.le
  have h2 : ∀ k, ∀ᶠ N : ℕ in atTop, 0 < devs (fun s => upto X N ω s k) / ((N : ℝ) - 1) := fun k => (hω k).eventually (lt_mem_nhds (hX.pos k))
  filter_upwards [eventually_all.2 h1, eventually_all.2 h2, eventually_gt_atTop 1] with N a1 a2 a3 i j
  have h5 : (1 : ℝ) < N := by exact_mod_cast a3
  have := kernel_near hw (upto X N ω) hX.pos hη0 (by rw [hη]; exact min_le_left _ _) a3 (fun k => ⟨?_, a1 k⟩) i j
  · refine this.trans ?_
    have : η ≤ c / 2 := by rw [hη]; exact min_le_right _ _
    linarith
  · exact (div_pos_iff_of_pos_right (by linarith)).1 (a2 k)

omit [IsProbabilityMeasure P] in
theorem indep_scale {X : Ω → Fin d → ℝ} {Y : Ω → Fin e → ℝ} {a : Fin d → ℝ} {b : Fin e → ℝ} (ha : ∀ k, a k ≠ 0) (hb : ∀ k, b k ≠ 0) :
    IndepFun (fun ω k => a k * X ω k) (fun ω k => b k * Y ω k) P ↔ IndepFun X Y P := by
  have hs : ∀ {d : Nat} (a : Fin d → ℝ), Measurable fun (x : Fin d → ℝ) k => a k * x k := fun a => by fun_prop
  constructor
  · intro h
    have := h.comp (hs fun k => (a k)⁻¹) (hs fun k => (b k)⁻¹)
    have e1 : ((fun (x : Fin d → ℝ) k => (a k)⁻¹ * x k) ∘ fun ω k => a k * X ω k) = X := by
      funext ω k
      simp only [Function.comp_apply]
      rw [← mul_assoc, inv_mul_cancel₀ (ha k), one_mul]
    have e2 : ((fun (x : Fin e → ℝ) k => (b k)⁻¹ * x k) ∘ fun ω k => b k * Y ω k) = Y := by
      funext ω k
      simp only [Function.comp_apply]
      rw [← mul_assoc, inv_mul_cancel₀ (hb k), one_mul]
    rwa [e1, e2] at this
  · exact fun h => h.comp (hs a) (hs b)

/-- C178. The statistic of the kernel test divided by the squared number of records tends, with probability one, to a number that is zero exactly if the two
variables are independent. -/
theorem c178_limit (cdf : ℝ → ℝ → ℝ → ℝ) {wx wy : ℝ} (hwx : 0 < wx) (hwy : 0 < wy) {X : ℕ → Ω → Fin d → ℝ} {Y : ℕ → Ω → Fin e → ℝ} (h : DrawnPairs P X Y)
    (hX : Scaled P (X 0)) (hY : Scaled P (Y 0)) :
    ∃ D : ℝ, 0 ≤ D ∧ (D = 0 ↔ IndepFun (X 0) (Y 0) P) ∧
      ∀ᵐ ω ∂P, Tendsto (fun N : ℕ => (ukciTest cdf wx wy (upto X N ω) (upto Y N ω)).2 / (N : ℝ) ^ 2) atTop (𝓝 D) := by
  obtain ⟨a, ha⟩ : ∃ a : Fin d → ℝ, a = fun k => √wx / √Var[fun ω => X 0 ω k; P] := ⟨_, rfl⟩
  obtain ⟨b, hb⟩ : ∃ b : Fin e → ℝ, b = fun k => √wy / √Var[fun ω => Y 0 ω k; P] := ⟨_, rfl⟩
  have hs : ∀ {d : Nat} (a : Fin d → ℝ), Measurable fun (x : Fin d → ℝ) k => a k * x k := fun a => by fun_prop
  have h' := h.map (hs a) (hs b)
  have ha0 : ∀ k, a k ≠ 0 := fun k => by
    rw [ha]; exact (div_pos (Real.sqrt_pos.2 hwx) (Real.sqrt_pos.2 (hX.pos k))).ne'
  have hb0 : ∀ k, b k ≠ 0 := fun k => by
    rw [hb]; exact (div_pos (Real.sqrt_pos.2 hwy) (Real.sqrt_pos.2 (hY.pos k))).ne'
  obtain ⟨h0, hz⟩ := limitStat_zero (P := P) (h'.measX 0) (h'.measY 0)
  refine ⟨_, h0, hz.trans (indep_scale ha0 hb0), ?_⟩
  filter_upwards [stat_limit h', kernel_near_drawn h hX hwx, kernel_near_drawn h.swap hY hwy] with ω h1 h2 h3
  rw [Metric.tendsto_atTop'] at h1 ⊢
  intro ε hε
  obtain ⟨N1, hN1⟩ := h1 (ε / 2) (by linarith)
  obtain ⟨N2, hN2⟩ := eventually_atTop.1 (h2 (ε / 128) (by linarith))
  obtain ⟨N3, hN3⟩ := eventually_atTop.1 (h3 (ε / 128) (by linarith))
  refine ⟨max N1 (max N2 N3), fun N hN => ?_⟩
  have a1 := hN1 N (by omega)
  have a2 := hN2 N (by omega)
  have a3 := hN3 N (by omega)
  have hN0 : (0 : ℝ) < N := by exact_mod_cast (by omega : 0 < N)
  have hle : ∀ {d : Nat} (X : Data N d) i j, |gaussianKernel X i j| ≤ 1 := fun X i j => by rw [gaussianKernel_eq]; exact gaussianWidth_le 1 zero_le_one X i j
  have a4 := stat_near (by linarith) a2 a3 (hle _) (gaussianWidth_le wy hwy.le _)
  rw [ukci_eq]
  rw [Real.dist_eq] at a1 ⊢
  simp only
  have a5 : |hsicStat (center (gaussianWidth wx (standardise (upto X N ω)))) (center (gaussianWidth wy (standardise (upto Y N ω)))) / (N : ℝ) ^ 2 -
      hsicStat (center (gaussianKernel (upto (fun s ω k => a k * X s ω k) N ω))) (center (gaussianKernel (upto (fun s ω k => b k * Y s ω k) N ω))) / (N : ℝ) ^ 2| ≤ ε / 4 := by
    rw [← sub_div, abs_div, abs_of_pos (by positivity : (0 : ℝ) < (N : ℝ) ^ 2), div_le_iff₀ (by positivity)]
    subst ha hb
    linarith
  have := abs_sub_le (hsicStat (center (gaussianWidth wx (standardise (upto X N ω)))) (center (gaussianWidth wy (standardise (upto Y N ω)))) / (N : ℝ) ^ 2)
    (hsicStat (center (gaussianKernel (upto (fun s ω k => a k * X s ω k) N ω))) (center (gaussianKernel (upto (fun s ω k => b k * Y s ω k) N ω))) / (N : ℝ) ^ 2)
    (limitStat P (fun ω k => a k * X 0 ω k) fun ω k => b k * Y 0 ω k)
  refine this.trans_lt ?_
  have a6 : |hsicStat (center (gaussianKernel (upto (fun s ω k => a k * X s ω k) N ω))) (center (gaussianKernel (upto (fun s ω k => b k * Y s ω k) N ω))) / (N : ℝ) ^ 2 -
    limitStat P (fun ω k => a k * X 0 ω k) fun ω k => b k * Y 0 ω k| < ε / 2 := a1
  linarith

theorem trace_center_le {K : Matrix (Fin n) (Fin n) ℝ} (h : ∀ i j, |K i j| ≤ 1) : (center K).trace ≤ 4 * n := by
  unfold Matrix.trace
  refine (Finset.sum_le_sum fun i _ => (le_abs_self _).trans (center_le zero_le_one h i i)).trans ?_
  simp only [Finset.sum_const, Finset.card_univ, Fintype.card_fin, nsmul_eq_mul]
  linarith

/-- What C178 asks of the distribution function `stats.gamma.cdf(t, k, scale=θ)`: Markov's inequality for the mean `k * θ` of the gamma distribution. -/
def Markov (cdf : ℝ → ℝ → ℝ → ℝ) : Prop := ∀ t k θ : ℝ, 0 < t → 0 < k → 0 < θ → 1 - cdf t k θ ≤ k * θ / t

/-- C178. If the two variables are not independent then, with probability one, the p-value of the test exists and is below every level from some number of
records on. -/
theorem c178_power {cdf : ℝ → ℝ → ℝ → ℝ} (hcdf : Markov cdf) {wx wy : ℝ} (hwx : 0 < wx) (hwy : 0 < wy) {X : ℕ → Ω → Fin d → ℝ} {Y : ℕ → Ω → Fin e → ℝ}
    (h : DrawnPairs P X Y) (hX : Scaled P (X 0)) (hY : Scaled P (Y 0)) (hdep : ¬ IndepFun (X 0) (Y 0) P) :
    ∀ᵐ ω ∂P, ∀ α > 0, ∀ᶠ N : ℕ in atTop, ∃ p, (ukciTest cdf wx wy (upto X N ω) (upto Y N ω)).1 = some p ∧ p < α := by
  obtain ⟨D, hD0, hD, hl⟩ := c178_limit cdf hwx hwy h hX hY
  have hDpos : 0 < D := lt_of_le_of_ne hD0 fun h0 => hdep (hD.1 h0.symm)
  filter_upwards [hl] with ω hω α hα
  have h1 : ∀ᶠ N : ℕ in atTop, 32 / (D * α) < N := tendsto_natCast_atTop_atTop.eventually (eventually_gt_atTop _)
  filter_upwards [hω.eventually (lt_mem_nhds (by linarith : D / 2 < D)), h1, eventually_gt_atTop 0] with N a1 a2 a3
  have hN : (0 : ℝ) < N := by exact_mod_cast a3
  rw [ukci_eq] at a1 ⊢
  simp only at a1 ⊢
  obtain ⟨K, hK⟩ : ∃ K, K = gaussianWidth wx (standardise (upto X N ω)) := ⟨_, rfl⟩
  obtain ⟨L, hL⟩ : ∃ L, L = gaussianWidth wy (standardise (upto Y N ω)) := ⟨_, rfl⟩
  have hKp : (center K).PosSemidef := hK ▸ center_psd (gaussianWidth_psd hwx.le _)
  have hLp : (center L).PosSemidef := hL ▸ center_psd (gaussianWidth_psd hwy.le _)
  have hK1 : (center K).trace ≤ 4 * N := trace_center_le (hK ▸ gaussianWidth_le wx hwx.le _)
  have hL1 : (center L).trace ≤ 4 * N := trace_center_le (hL ▸ gaussianWidth_le wy hwy.le _)
  rw [← hK, ← hL] at a1 ⊢
  rw [lt_div_iff₀ (by positivity)] at a1
  have hs : 0 < hsicStat (center K) (center L) := lt_trans (by positivity) a1
  obtain ⟨p, hp⟩ : ∃ p, gammaPvalue cdf (center K) (center L) (hsicStat (center K) (center L)) = some p := by
    rw [← Option.ne_none_iff_exists']
    intro h0
    rw [gammaPvalue_none cdf a3.ne' hKp hLp] at h0
    rcases h0 with h0 | h0 <;> simp [h0, hsicStat] at hs
  refine ⟨p, hp, ?_⟩
  obtain ⟨k, t, hk, ht, h1, -, h3⟩ := gammaPvalue_some hKp hLp hp
  rw [h3]
  refine (hcdf _ k t hs hk ht).trans_lt ?_
  rw [h1, div_lt_iff₀ hs]
  have b1 : (center K).trace * (center L).trace / N ≤ 16 * N := by
    rw [div_le_iff₀ hN]
    have := mul_le_mul hK1 hL1 hLp.trace_nonneg (by positivity)
    linarith
  rw [div_lt_iff₀ (by positivity)] at a2
  have b2 : α * (D / 2 * (N : ℝ) ^ 2) < α * hsicStat (center K) (center L) := mul_lt_mul_of_pos_left a1 hα
  nlinarith

/-- From 1200 records on, the width is the same for all numbers of records, except with the strategy "median". -/
theorem width_const {s : Strategy} (hs : s ≠ .median) {w : ℝ} (hw : 0 < w) (hd : 0 < d) :
    ∃ t : ℝ, 0 < t ∧ ∀ N, 1200 ≤ N → ∀ (pp : Equiv.Perm (Fin N)) (X : Data N d), callWidth s w pp X = some t := by
  have hd' : (0 : ℝ) < d := by exact_mod_cast hd
  match s with
  | .manual => exact ⟨w, hw, fun _ _ _ _ => rfl⟩
  | .median => exact absurd rfl hs
  | .kci => exact ⟨1 / (4 / 10) ^ 2 / d, by positivity, fun N hN _ _ => by simp [callWidth, thetaKci, show ¬ N < 200 by omega, show ¬ N < 1200 by omega]⟩
  | .hsic => exact ⟨1 / (3 / 10) ^ 2 * d, by positivity, fun N hN _ _ => by simp [callWidth, thetaHsic, show ¬ N < 200 by omega, show ¬ N < 1200 by omega]⟩

/-- C178. The same with kernels that choose their widths by one of the two empirical strategies. -/
theorem c178_strategy {cdf : ℝ → ℝ → ℝ → ℝ} (hcdf : Markov cdf) {s s' : Strategy} (hs : s ≠ .median) (hs' : s' ≠ .median) {wx wy : ℝ} (hwx : 0 < wx) (hwy : 0 < wy)
    (hd : 0 < d) (he : 0 < e) {X : ℕ → Ω → Fin d → ℝ} {Y : ℕ → Ω → Fin e → ℝ}
    (h : DrawnPairs P X Y) (hX : Scaled P (X 0)) (hY : Scaled P (Y 0)) (hdep : ¬ IndepFun (X 0) (Y 0) P) :
    ∀ᵐ ω ∂P, ∀ α > 0, ∀ᶠ N : ℕ in atTop, ∀ pp pp' : Equiv.Perm (Fin N), ∃ vx vy p, callWidth s wx pp (standardise (upto X N ω)) = some vx ∧
      callWidth s' wy pp' (standardise (upto Y N ω)) = some vy ∧ (ukciTest cdf vx vy (upto X N ω) (upto Y N ω)).1 = some p ∧ p < α := by
  obtain ⟨vx, hvx, e1⟩ := width_const hs hwx hd
  obtain ⟨vy, hvy, e2⟩ := width_const hs' hwy he
  filter_upwards [c178_power hcdf hvx hvy h hX hY hdep] with ω hω α hα
  filter_upwards [hω α hα, eventually_ge_atTop 1200] with N hp hN pp pp'
  obtain ⟨p, hp⟩ := hp
  exact ⟨vx, vy, p, e1 N hN _ _, e2 N hN _ _, hp⟩

/-- C178. The statistic of `HSIC_V_statistic` on the data as they are, without any assumption on moments. -/
theorem c178_vstat {wx wy : ℝ} (hwx : 0 < wx) (hwy : 0 < wy) {X : ℕ → Ω → Fin d → ℝ} {Y : ℕ → Ω → Fin e → ℝ} (h : DrawnPairs P X Y) :
    ∃ D : ℝ, 0 ≤ D ∧ (D = 0 ↔ IndepFun (X 0) (Y 0) P) ∧
      ∀ᵐ ω ∂P, Tendsto (fun N : ℕ => HsicTest.vStat (gaussianWidth wx (upto X N ω)) (gaussianWidth wy (upto Y N ω)) / (N : ℝ) ^ 2) atTop (𝓝 D) := by
  have hs : ∀ {d : Nat} (a : ℝ), Measurable fun (x : Fin d → ℝ) k => a * x k := fun a => by fun_prop
  have h' := h.map (hs √wx) (hs √wy)
  obtain ⟨h0, hz⟩ := limitStat_zero (P := P) (h'.measX 0) (h'.measY 0)
  refine ⟨_, h0, hz.trans (indep_scale (a := fun _ => √wx) (b := fun _ => √wy) (fun _ => (Real.sqrt_pos.2 hwx).ne') fun _ => (Real.sqrt_pos.2 hwy).ne'), ?_⟩
  filter_upwards [stat_limit h'] with ω hω
  refine hω.congr fun N => ?_
  have e : ∀ {d : Nat} {w : ℝ} (_ : 0 < w) (X : ℕ → Ω → Fin d → ℝ), (gaussianKernel fun (s : Fin N) k => √w * X s ω k) = gaussianWidth w (upto X N ω) := fun hw X => by
    ext i j
    unfold gaussianKernel gaussianWidth sqDist upto
    congr 1
    simp only [← mul_sub, mul_pow, Real.sq_sqrt hw.le, ← Finset.mul_sum]
    ring
  unfold HsicTest.vStat
  rw [centerKernelMatrix_eq (gaussianWidth_symm wx _), centerKernelMatrix_eq (gaussianWidth_symm wy _)]
  exact congrArg (· / (N : ℝ) ^ 2) (by rw [e hwx X, e hwy Y]; rfl)

end drawn

section gamma
open scoped ENNReal

/-- The distribution function of the gamma distribution with shape `k` and scale `θ`. -/
noncomputable def gammaCdf (t k θ : ℝ) : ℝ := (gammaMeasure k (1 / θ)).real (Set.Iic t)

/-- The true distribution function meets the hypothesis of `c178_power`. -/
theorem gamma_markov : Markov gammaCdf := by
  intro t k θ ht hk hθ
  have hr : 0 < 1 / θ := by positivity
  have := isProbabilityMeasure_gammaMeasure hk hr
  have h1 : 1 - gammaCdf t k θ = (gammaMeasure k (1 / θ)).real (Set.Ioi t) := by
    unfold gammaCdf
    rw [← Set.compl_Iic, measureReal_compl measurableSet_Iic, probReal_univ]
  have h2 : ∫⁻ x, ENNReal.ofReal x ∂gammaMeasure k (1 / θ) = ENNReal.ofReal (k * θ) := by
    unfold gammaMeasure
    have hmg : Measurable (gammaPDF k (1 / θ)) := (measurable_gammaPDFReal _ _).ennreal_ofReal
    rw [lintegral_withDensity_eq_lintegral_mul _ hmg (g := fun x => ENNReal.ofReal x) (by fun_prop)]
    have e : ∀ x, (gammaPDF k (1 / θ) * fun x => ENNReal.ofReal x) x = ENNReal.ofReal (k * θ) * gammaPDF (k + 1) (1 / θ) x := fun x => by
      rcases lt_or_ge x 0 with hx | hx
      · simp [gammaPDF_of_neg hx]
      · rw [Pi.mul_apply, gammaPDF_of_nonneg hx, gammaPDF_of_nonneg hx, ← ENNReal.ofReal_mul' hx, ← ENNReal.ofReal_mul (by positivity)]
        congr 1
        rcases hx.eq_or_lt with h0 | h0
        · subst h0
          rw [add_sub_cancel_right, Real.zero_rpow hk.ne']
          ring
        · have hg := Real.Gamma_pos_of_pos hk
          rw [Real.Gamma_add_one hk.ne', Real.rpow_add_one hr.ne', show k + 1 - 1 = k - 1 + 1 by ring, Real.rpow_add_one h0.ne']
          field_simp
    simp_rw [e]
    have hmg' : Measurable (gammaPDF (k + 1) (1 / θ)) := (measurable_gammaPDFReal _ _).ennreal_ofReal
    rw [lintegral_const_mul _ hmg', lintegral_gammaPDF_eq_one (by linarith) hr, mul_one]
  have h3 := mul_meas_ge_le_lintegral (μ := gammaMeasure k (1 / θ)) (f := fun x => ENNReal.ofReal x) (by fun_prop) (ENNReal.ofReal t)
  rw [h2] at h3
  have h4 : gammaMeasure k (1 / θ) (Set.Ioi t) ≤ gammaMeasure k (1 / θ) {x | ENNReal.ofReal t ≤ ENNReal.ofReal x} :=
    measure_mono fun x hx => ENNReal.ofReal_le_ofReal (le_of_lt hx)
  have h5 : ENNReal.ofReal t * gammaMeasure k (1 / θ) (Set.Ioi t) ≤ ENNReal.ofReal (k * θ) := (mul_le_mul_right h4 _).trans h3
  rw [h1, le_div_iff₀ ht, mul_comm]
  have h6 := ENNReal.toReal_mono ENNReal.ofReal_ne_top h5
  rwa [ENNReal.toReal_mul, ENNReal.toReal_ofReal ht.le, ENNReal.toReal_ofReal (by positivity)] at h6

end gamma

section examples
open Consistency Fisher

/-- Two columns of the chain of C172 with normal errors, which are dependent. -/
theorem exPairs : ∃ (Ω : Type) (_ : MeasurableSpace Ω) (P : Measure Ω) (_ : IsProbabilityMeasure P) (X Y : ℕ → Ω → Fin 1 → ℝ),
    DrawnPairs P X Y ∧ Scaled P (X 0) ∧ Scaled P (Y 0) ∧ ¬ IndepFun (X 0) (Y 0) P := by
  obtain ⟨Ω, mΩ, P, hP, E, hm, hl, hd, hC⟩ := exErrors
  have hc : ∀ a b, cov[fun ω => Fisher.exX a (E 0 ω), fun ω => Fisher.exX b (E 0 ω); P] = exCov a b := fun a b => congrFun (congrFun hC a) b
  have hml : ∀ v, MemLp (fun ω => Fisher.exX v (E 0 ω)) 2 P := fun v => (Consistency.exX_memLp v 2).comp_measurePreserving ((hl 0).measurePreserving (hm 0))
  have hf : ∀ v, Measurable fun (e : Fin 3 → ℝ) => Fisher.exX v e := Consistency.exX_meas
  have hpos : ∀ v, 0 < Var[fun ω => Fisher.exX v (E 0 ω); P] := fun v => by
    rw [← covariance_self (hml v).aemeasurable, hc]
    fin_cases v <;> simp [exCov]
  refine ⟨Ω, mΩ, P, hP, fun s ω _ => Fisher.exX 0 (E s ω), fun s ω _ => Fisher.exX 1 (E s ω), ⟨fun s => ?_, fun s => ?_, ?_, fun s => ?_⟩, ⟨fun _ => hml 0, fun _ => hpos 0⟩,
    ⟨fun _ => hml 1, fun _ => hpos 1⟩, fun h => ?_⟩
  · exact measurable_pi_lambda _ fun _ => (hf 0).comp (hm s)
  · exact measurable_pi_lambda _ fun _ => (hf 1).comp (hm s)
  · exact hd.indep.comp (fun _ (x : Fin 3 → ℝ) => ((fun _ => x 0 : Fin 1 → ℝ), (fun _ => x 1 : Fin 1 → ℝ))) fun _ => by fun_prop
  · exact (hd.ident s).comp (u := fun (x : Fin 3 → ℝ) => ((fun _ => x 0 : Fin 1 → ℝ), (fun _ => x 1 : Fin 1 → ℝ))) (by fun_prop)
  · have h1 : IndepFun (fun ω => Fisher.exX 0 (E 0 ω)) (fun ω => Fisher.exX 1 (E 0 ω)) P := h.comp (φ := fun x : Fin 1 → ℝ => x 0) (ψ := fun x : Fin 1 → ℝ => x 0) (by fun_prop) (by fun_prop)
    have h2 := h1.covariance_eq_zero (hml 0) (hml 1)
    rw [hc] at h2
    simp [exCov] at h2

example : ∃ (Ω : Type) (_ : MeasurableSpace Ω) (P : Measure Ω) (X Y : ℕ → Ω → Fin 1 → ℝ) (D : ℝ), 0 < D ∧
    ∀ᵐ ω ∂P, Tendsto (fun N : ℕ => (kciTest gammaCdf (upto X N ω) (upto Y N ω)).2 / (N : ℝ) ^ 2) atTop (𝓝 D) := by
  obtain ⟨Ω, mΩ, P, hP, X, Y, h, hX, hY, hd⟩ := exPairs
  obtain ⟨D, h0, hD, hl⟩ := c178_limit gammaCdf one_pos one_pos h hX hY
  exact ⟨Ω, mΩ, P, X, Y, D, lt_of_le_of_ne h0 fun h0 => hd (hD.1 h0.symm), by simpa only [c83_agree] using hl⟩

example : ∃ (Ω : Type) (_ : MeasurableSpace Ω) (P : Measure Ω) (X Y : ℕ → Ω → Fin 1 → ℝ),
    ∀ᵐ ω ∂P, ∀ α > 0, ∀ᶠ N : ℕ in atTop, ∃ p, (kciTest gammaCdf (upto X N ω) (upto Y N ω)).1 = some p ∧ p < α := by
  obtain ⟨Ω, mΩ, P, hP, X, Y, h, hX, hY, hd⟩ := exPairs
  exact ⟨Ω, mΩ, P, X, Y, by simpa only [c83_agree] using c178_power gamma_markov one_pos one_pos h hX hY hd⟩

example : ∃ (Ω : Type) (_ : MeasurableSpace Ω) (P : Measure Ω) (X Y : ℕ → Ω → Fin 1 → ℝ),
    ∀ᵐ ω ∂P, ∀ α > 0, ∀ᶠ N : ℕ in atTop, ∀ pp pp' : Equiv.Perm (Fin N), ∃ vx vy p, callWidth .kci 1 pp (standardise (upto X N ω)) = some vx ∧
      callWidth .hsic 1 pp' (standardise (upto Y N ω)) = some vy ∧ (ukciTest gammaCdf vx vy (upto X N ω) (upto Y N ω)).1 = some p ∧ p < α := by
  obtain ⟨Ω, mΩ, P, hP, X, Y, h, hX, hY, hd⟩ := exPairs
  exact ⟨Ω, mΩ, P, X, Y, c178_strategy gamma_markov (by simp) (by simp) one_pos one_pos one_pos one_pos h hX hY hd⟩

example : ∃ (Ω : Type) (_ : MeasurableSpace Ω) (P : Measure Ω) (X Y : ℕ → Ω → Fin 1 → ℝ) (D : ℝ), 0 < D ∧
    ∀ᵐ ω ∂P, Tendsto (fun N : ℕ => HsicTest.vStat (gaussianWidth 2 (upto X N ω)) (gaussianWidth 3 (upto Y N ω)) / (N : ℝ) ^ 2) atTop (𝓝 D) := by
  obtain ⟨Ω, mΩ, P, hP, X, Y, h, -, -, hd⟩ := exPairs
  obtain ⟨D, h0, hD, hl⟩ := c178_vstat two_pos three_pos h
  exact ⟨Ω, mΩ, P, X, Y, D, lt_of_le_of_ne h0 fun h0 => hd (hD.1 h0.symm), hl⟩

end examples

end Cdmir.KTest
