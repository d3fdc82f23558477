import Mathlib.Probability.Distributions.Gaussian.Real
import Mathlib.Probability.Independence.Integration
import Mathlib.MeasureTheory.Integral.Gamma
import Mathlib.Analysis.SpecialFunctions.Gaussian.GaussianIntegral
import Mathlib.Tactic.Linarith

/-! Weighted sums of independent variables: fourth moments, and a lower bound of the probability of positive values. The even moments of the normal distribution. -/

namespace Cdmir.Chaos
open BigOperators MeasureTheory ProbabilityTheory

variable {Ω : Type} [MeasurableSpace Ω] {Q : Measure Ω} [IsProbabilityMeasure Q]

theorem pow_integrable {W : Ω → ℝ} (h : MemLp W 4 Q) {k : ℕ} (hk : k ≤ 4) : Integrable (fun ω => W ω ^ k) Q := by
  have h1 : MemLp W k Q := h.mono_exponent (by exact_mod_cast hk)
  have h2 := h1.integrable_norm_pow'
  refine h2.mono' (h.1.pow k) (Filter.Eventually.of_forall fun ω => ?_)
  rw [norm_pow]

/-- Moments of a weighted sum of independent variables with mean zero. -/
theorem sum_moments {ι : Type} [DecidableEq ι] {ξ : ι → Ω → ℝ} (hi : iIndepFun ξ Q) (hm : ∀ i, Measurable (ξ i)) (hL : ∀ i, MemLp (ξ i) 4 Q) {v κ : ℝ} (hκ : 3 ≤ κ)
    (h1 : ∀ i, ∫ ω, ξ i ω ∂Q = 0) (h2 : ∀ i, ∫ ω, ξ i ω ^ 2 ∂Q = v) (h4 : ∀ i, ∫ ω, ξ i ω ^ 4 ∂Q ≤ κ * v ^ 2) (c : ι → ℝ) (s : Finset ι) :
    MemLp (fun ω => ∑ i ∈ s, c i * ξ i ω) 4 Q ∧ ∫ ω, ∑ i ∈ s, c i * ξ i ω ∂Q = 0 ∧ ∫ ω, (∑ i ∈ s, c i * ξ i ω) ^ 2 ∂Q = v * ∑ i ∈ s, c i ^ 2 ∧
      ∫ ω, (∑ i ∈ s, c i * ξ i ω) ^ 4 ∂Q ≤ κ * (v * ∑ i ∈ s, c i ^ 2) ^ 2 := by
  induction s using Finset.induction_on with
  | empty => simp
  | insert j s hj ih =>
    obtain ⟨a0, a1, a2, a4⟩ := ih
    have hind : IndepFun (fun ω => ∑ i ∈ s, c i * ξ i ω) (ξ j) Q := by
      have h5 : iIndepFun (fun i ω => (if i = j then 1 else c i) * ξ i ω) Q := hi.comp (fun i x => (if i = j then 1 else c i) * x) fun i => by fun_prop
      have h6 := h5.indepFun_finsetSum_of_notMem (fun i => (hm i).const_mul _) hj
      have e1 : (∑ i ∈ s, fun ω => (if i = j then 1 else c i) * ξ i ω) = fun ω => ∑ i ∈ s, c i * ξ i ω := by
        ext ω
        rw [Finset.sum_apply]
        exact Finset.sum_congr rfl fun i hi => by rw [if_neg fun (e : i = j) => hj (e ▸ hi)]
      have e2 : (fun ω => (if j = j then 1 else c j) * ξ j ω) = ξ j := by ext ω; simp
      rw [e1, e2] at h6
      exact h6
    obtain ⟨W, hW⟩ : ∃ W : Ω → ℝ, W = fun ω => ∑ i ∈ s, c i * ξ i ω := ⟨_, rfl⟩
    have hWω : ∀ ω, W ω = ∑ i ∈ s, c i * ξ i ω := fun ω => by rw [hW]
    rw [← hW] at a0 hind
    simp only [← hWω] at a1 a2 a4
    simp only [Finset.sum_insert hj, ← hWω]
    obtain ⟨S, hS⟩ : ∃ S, S = ∑ i ∈ s, c i ^ 2 := ⟨_, rfl⟩
    rw [← hS] at a2 a4 ⊢
    have hint : ∀ {k : ℕ}, k ≤ 4 → Integrable (fun ω => ξ j ω ^ k) Q := fun hk => pow_integrable (hL j) hk
    have hWint : ∀ {k : ℕ}, k ≤ 4 → Integrable (fun ω => W ω ^ k) Q := fun hk => pow_integrable a0 hk
    have hp : ∀ (k l : ℕ), IndepFun (fun ω => W ω ^ k) (fun ω => ξ j ω ^ l) Q := fun k l =>
      hind.comp (φ := fun x => x ^ k) (ψ := fun x => x ^ l) (by fun_prop) (by fun_prop)
    have hpi : ∀ {k l : ℕ}, k ≤ 4 → l ≤ 4 → Integrable (fun ω => W ω ^ k * ξ j ω ^ l) Q := fun {k l} hk hl => (hp k l).integrable_mul (hWint hk) (hint hl)
    have hpe : ∀ {k l : ℕ}, k ≤ 4 → l ≤ 4 → ∫ ω, W ω ^ k * ξ j ω ^ l ∂Q = (∫ ω, W ω ^ k ∂Q) * ∫ ω, ξ j ω ^ l ∂Q := fun {k l} hk hl =>
      (hp k l).integral_fun_mul_eq_mul_integral (hWint hk).1 (hint hl).1
    have m1 : ∫ ω, ξ j ω ^ 1 ∂Q = 0 := by simpa using h1 j
    have w1 : ∫ ω, W ω ^ 1 ∂Q = 0 := by simpa using a1
    refine ⟨((hL j).const_mul _).add a0, ?_, ?_, ?_⟩
    · rw [integral_add (((hL j).integrable (by norm_num)).const_mul _) (a0.integrable (by norm_num)), integral_const_mul, h1, a1]
      simp
    · have e : ∀ ω, (c j * ξ j ω + W ω) ^ 2 = c j ^ 2 * ξ j ω ^ 2 + 2 * c j * (W ω ^ 1 * ξ j ω ^ 1) + W ω ^ 2 := fun ω => by ring
      simp only [e]
      have i1 := (hint (k := 2) (by norm_num)).const_mul (c j ^ 2)
      have i2 := (hpi (k := 1) (l := 1) (by norm_num) (by norm_num)).const_mul (2 * c j)
      rw [integral_add (i1.fun_add i2) (hWint (by norm_num)), integral_add i1 i2, integral_const_mul, integral_const_mul, hpe (by norm_num) (by norm_num), h2, m1, a2]
      ring
    · have e : ∀ ω, (c j * ξ j ω + W ω) ^ 4 = c j ^ 4 * ξ j ω ^ 4 + 4 * c j ^ 3 * (W ω ^ 1 * ξ j ω ^ 3) + 6 * c j ^ 2 * (W ω ^ 2 * ξ j ω ^ 2) +
          4 * c j * (W ω ^ 3 * ξ j ω ^ 1) + W ω ^ 4 := fun ω => by ring
      have i1 := (hint (k := 4) le_rfl).const_mul (c j ^ 4)
      have i2 := (hpi (k := 1) (l := 3) (by norm_num) (by norm_num)).const_mul (4 * c j ^ 3)
      have i3 := (hpi (k := 2) (l := 2) (by norm_num) (by norm_num)).const_mul (6 * c j ^ 2)
      have i4 := (hpi (k := 3) (l := 1) (by norm_num) (by norm_num)).const_mul (4 * c j)
      simp only [e]
      rw [integral_add (((i1.fun_add i2).fun_add i3).fun_add i4) (hWint le_rfl), integral_add ((i1.fun_add i2).fun_add i3) i4, integral_add (i1.fun_add i2) i3, integral_add i1 i2, integral_const_mul, integral_const_mul,
        integral_const_mul, integral_const_mul, hpe (by norm_num) (by norm_num), hpe (by norm_num) (by norm_num), hpe (by norm_num) (by norm_num), m1, w1, h2, a2]
      have hc4 : c j ^ 4 * ∫ ω, ξ j ω ^ 4 ∂Q ≤ c j ^ 4 * (κ * v ^ 2) := mul_le_mul_of_nonneg_left (h4 j) (by positivity)
      have hS0 : 0 ≤ S := hS ▸ Finset.sum_nonneg fun i _ => sq_nonneg _
      have h7 : 0 ≤ (κ - 3) * (c j ^ 2 * S * v ^ 2) := mul_nonneg (by linarith) (by positivity)
      nlinarith

/-- A variable with mean zero is positive with a probability that only depends on its fourth moment. -/
theorem positive_share {W : Ω → ℝ} (hm : Measurable W) (hL : MemLp W 4 Q) {s κ t : ℝ} (hs : 0 < s) (hκ : 1 ≤ κ) (h1 : ∫ ω, W ω ∂Q = 0) (h2 : ∫ ω, W ω ^ 2 ∂Q = s ^ 2)
    (h4 : ∫ ω, W ω ^ 4 ∂Q ≤ κ * (s ^ 2) ^ 2) (ht : 0 ≤ t) (hts : 2 * t * (1 + κ) ≤ s) : 1 / (9 * κ) ≤ Q.real {ω | t < W ω} := by
  obtain ⟨a, ha0, ha⟩ : ∃ a, 1 ≤ a ∧ a ^ 2 = κ := ⟨√κ, by rw [Real.one_le_sqrt]; exact hκ, Real.sq_sqrt (by linarith)⟩
  obtain ⟨A, hA⟩ : ∃ A, A = a * s := ⟨_, rfl⟩
  have hA0 : 0 < A := hA ▸ by positivity
  have htA : t ≤ A := by
    rw [hA]
    nlinarith
  have hq : ∀ w : ℝ, (w - t) * (2 * A - t - w) * (w + A) ^ 2 ≤ 9 * A ^ 4 * (if t < w then 1 else 0) := by
    intro w
    split_ifs with h
    · rcases le_total (2 * A - t) w with h5 | h5
      · have : (w - t) * (2 * A - t - w) ≤ 0 := mul_nonpos_of_nonneg_of_nonpos (by linarith) (by linarith)
        have := mul_nonpos_of_nonpos_of_nonneg this (sq_nonneg (w + A))
        have : 0 < A ^ 4 := by positivity
        linarith
      · have b1 : (w - t) * (2 * A - t - w) ≤ A ^ 2 := by nlinarith [sq_nonneg (w - A)]
        have b2 : (w + A) ^ 2 ≤ 9 * A ^ 2 := by nlinarith
        have := mul_le_mul b1 b2 (sq_nonneg _) (by positivity)
        linarith
    · have : (w - t) * (2 * A - t - w) ≤ 0 := mul_nonpos_of_nonpos_of_nonneg (by linarith) (by linarith)
      have := mul_nonpos_of_nonpos_of_nonneg this (sq_nonneg (w + A))
      linarith
  have hset : MeasurableSet {ω | t < W ω} := measurableSet_lt measurable_const hm
  have i1 := pow_integrable hL (k := 1) (by norm_num)
  have i2 := pow_integrable hL (k := 2) (by norm_num)
  have i4 := pow_integrable hL (k := 4) (by norm_num)
  have e : ∀ w : ℝ, (w - t) * (2 * A - t - w) * (w + A) ^ 2 =
      (-1) * w ^ 4 + (3 * A ^ 2 - t * (2 * A - t)) * w ^ 2 + (2 * A ^ 3 - 2 * A * (t * (2 * A - t))) * w ^ 1 + (-(t * (2 * A - t) * A ^ 2)) := fun w => by ring
  have j1 := i4.const_mul (-1)
  have j2 := i2.const_mul (3 * A ^ 2 - t * (2 * A - t))
  have j3 := i1.const_mul (2 * A ^ 3 - 2 * A * (t * (2 * A - t)))
  have hE : ∫ ω, (W ω - t) * (2 * A - t - W ω) * (W ω + A) ^ 2 ∂Q = -(∫ ω, W ω ^ 4 ∂Q) + (3 * A ^ 2 - t * (2 * A - t)) * s ^ 2 - t * (2 * A - t) * A ^ 2 := by
    simp only [e]
    rw [integral_add ((j1.fun_add j2).fun_add j3) (integrable_const _), integral_add (j1.fun_add j2) j3, integral_add j1 j2, integral_const_mul, integral_const_mul, integral_const_mul, h2]
    simp only [pow_one, h1, integral_const, probReal_univ, one_smul]
    ring
  have hle : ∫ ω, (W ω - t) * (2 * A - t - W ω) * (W ω + A) ^ 2 ∂Q ≤ ∫ ω, 9 * A ^ 4 * {ω | t < W ω}.indicator 1 ω ∂Q := by
    refine integral_mono ?_ ((IntegrableOn.integrable_indicator (integrable_const _).integrableOn hset).const_mul _) fun ω => ?_
    · simp only [e]
      exact ((j1.add j2).add j3).add (integrable_const _)
    · have := hq (W ω)
      simp only [Set.indicator_apply, Set.mem_ofPred_eq, Pi.one_apply]
      exact this
  rw [hE, integral_const_mul, integral_indicator_one hset] at hle
  rw [div_le_iff₀ (by positivity)]
  have hA2 : A ^ 2 = κ * s ^ 2 := by rw [hA, mul_pow, ha]
  have hA4 : A ^ 4 = κ ^ 2 * s ^ 4 := by rw [show A ^ 4 = (A ^ 2) ^ 2 by ring, hA2]; ring
  have ht2 : t * (2 * A - t) * (1 + κ) ≤ κ * s ^ 2 := by
    have b1 : t * (2 * A - t) * (1 + κ) ≤ A * (2 * t * (1 + κ)) := by nlinarith [mul_nonneg (mul_nonneg ht ht) (by linarith : 0 ≤ 1 + κ)]
    have b2 : A * (2 * t * (1 + κ)) ≤ A * s := mul_le_mul_of_nonneg_left hts hA0.le
    have b3 : A * s ≤ κ * s ^ 2 := by
      rw [hA, ← ha]
      nlinarith [mul_nonneg (mul_nonneg (by linarith : 0 ≤ a - 1) (by linarith : 0 ≤ a)) (sq_nonneg s)]
    linarith
  obtain ⟨p, hp⟩ : ∃ p, p = Q.real {ω | t < W ω} := ⟨_, rfl⟩
  rw [← hp] at hle ⊢
  rw [hA2, hA4] at hle
  have hs2 : 0 < s ^ 2 := by positivity
  have h5 : t * (2 * A - t) * (1 + κ) * s ^ 2 ≤ κ * s ^ 2 * s ^ 2 := mul_le_mul_of_nonneg_right ht2 hs2.le
  have h6 : κ * s ^ 4 ≤ 9 * (κ ^ 2 * s ^ 4) * p := by nlinarith
  have h7 : 0 < κ * s ^ 4 := by positivity
  by_contra hc
  have : (p * (9 * κ)) * (κ * s ^ 4) < 1 * (κ * s ^ 4) := mul_lt_mul_of_pos_right (not_le.1 hc) h7
  nlinarith

/-- The even moments of the standard normal distribution. -/
theorem gauss_even (k : ℕ) : ∫ x, x ^ (2 * k) ∂gaussianReal 0 1 = ((2 * k - 1).doubleFactorial : ℝ) := by
  rw [integral_gaussianReal_eq_integral_smul one_ne_zero]
  simp only [gaussianPDFReal, smul_eq_mul, NNReal.coe_one, mul_one, sub_zero]
  have e1 : ∀ x : ℝ, (√(2 * Real.pi))⁻¹ * Real.exp (-x ^ 2 / 2) * x ^ (2 * k) = (√(2 * Real.pi))⁻¹ * (fun y : ℝ => y ^ ((2 * k : ℕ) : ℝ) * Real.exp (-(1 / 2) * y ^ (2 : ℝ))) |x| := fun x => by
    simp only [Real.rpow_natCast, Real.rpow_two, sq_abs, pow_mul]
    rw [mul_assoc, mul_comm (Real.exp _)]
    ring_nf
  simp only [e1]
  rw [integral_const_mul, integral_comp_abs (f := fun y : ℝ => y ^ ((2 * k : ℕ) : ℝ) * Real.exp (-(1 / 2) * y ^ (2 : ℝ))), integral_rpow_mul_exp_neg_mul_rpow two_pos (by have : (0 : ℝ) ≤ ((2 * k : ℕ) : ℝ) := Nat.cast_nonneg _; linarith) (by norm_num)]
  have e2 : (((2 * k : ℕ) : ℝ) + 1) / 2 = k + 1 / 2 := by push_cast; ring
  have e3 : -(((2 * k : ℕ) : ℝ) + 1) / 2 = -(k + 1 / 2) := by push_cast; ring
  rw [e2, e3, Real.Gamma_nat_add_half, one_div, Real.inv_rpow (by norm_num), Real.rpow_neg (by norm_num), inv_inv, Real.rpow_add (by norm_num), Real.rpow_natCast,
    Real.sqrt_mul (by norm_num), show (2 : ℝ) ^ (2⁻¹ : ℝ) = √2 by rw [Real.sqrt_eq_rpow, one_div]]
  have : √Real.pi ≠ 0 := (Real.sqrt_pos.2 Real.pi_pos).ne'
  field_simp

omit [IsProbabilityMeasure Q] in
/-- What is needed of the square of a standard normal variable less one. -/
theorem gauss_square {z : Ω → ℝ} (hz : HasLaw z (gaussianReal 0 1) Q) : MemLp (fun ω => z ω ^ 2 - 1) 4 Q ∧ ∫ ω, (z ω ^ 2 - 1) ∂Q = 0 ∧ ∫ ω, (z ω ^ 2 - 1) ^ 2 ∂Q = 2 ∧
    ∫ ω, (z ω ^ 2 - 1) ^ 4 ∂Q ≤ 15 * 2 ^ 2 := by
  have hL : ∀ k : ℕ, Integrable (fun x : ℝ => x ^ k) (gaussianReal 0 1) := fun k => by
    have h1 := (memLp_id_gaussianReal (μ := 0) (v := 1) (k : NNReal))
    have h2 : MemLp id (k : ENNReal) (gaussianReal 0 1) := by simpa using h1
    refine h2.integrable_norm_pow'.mono' (by fun_prop) (Filter.Eventually.of_forall fun x => ?_)
    rw [norm_pow]; rfl
  have m2 : ∫ x, x ^ 2 ∂gaussianReal 0 1 = 1 := by simpa using gauss_even 1
  have m4 : ∫ x, x ^ 4 ∂gaussianReal 0 1 = 3 := by have := gauss_even 2; norm_num [Nat.doubleFactorial] at this; exact this
  have m6 : ∫ x, x ^ 6 ∂gaussianReal 0 1 = 15 := by have := gauss_even 3; norm_num [Nat.doubleFactorial] at this; exact this
  have m8 : ∫ x, x ^ 8 ∂gaussianReal 0 1 = 105 := by have := gauss_even 4; norm_num [Nat.doubleFactorial] at this; exact this
  have hint : ∀ f : ℝ → ℝ, Measurable f → ∫ ω, f (z ω) ∂Q = ∫ x, f x ∂gaussianReal 0 1 := fun f hf => by
    rw [← hz.map_eq, integral_map hz.aemeasurable (hf.aestronglyMeasurable)]
  refine ⟨?_, ?_, ?_, ?_⟩
  · have h8 : MemLp (fun x : ℝ => x ^ 2 - 1) 4 (gaussianReal 0 1) := by
      rw [← integrable_norm_rpow_iff (by fun_prop) (by norm_num) (by norm_num)]
      have e : ∀ x : ℝ, ‖x ^ 2 - 1‖ ^ (4 : ENNReal).toReal = x ^ 8 - 4 * x ^ 6 + 6 * x ^ 4 - 4 * x ^ 2 + 1 := fun x => by
        rw [show (4 : ENNReal).toReal = ((4 : ℕ) : ℝ) by norm_num, Real.rpow_natCast, ← norm_pow, Real.norm_of_nonneg (by positivity)]
        ring
      simp only [e]
      exact ((((hL 8).sub ((hL 6).const_mul 4)).add ((hL 4).const_mul 6)).sub ((hL 2).const_mul 4)).add (integrable_const 1)
    rw [← hz.map_eq] at h8
    exact h8.comp_of_map hz.aemeasurable
  · rw [hint (fun x => x ^ 2 - 1) (by fun_prop), integral_sub (hL 2) (integrable_const _), m2]
    simp
  · rw [hint (fun x => (x ^ 2 - 1) ^ 2) (by fun_prop)]
    have e : ∀ x : ℝ, (x ^ 2 - 1) ^ 2 = x ^ 4 + (-2) * x ^ 2 + 1 := fun x => by ring
    simp only [e]
    rw [integral_add ((hL 4).fun_add ((hL 2).const_mul _)) (integrable_const _), integral_add (hL 4) ((hL 2).const_mul _), integral_const_mul, m2, m4]
    simp
    norm_num
  · rw [hint (fun x => (x ^ 2 - 1) ^ 4) (by fun_prop)]
    have e : ∀ x : ℝ, (x ^ 2 - 1) ^ 4 = x ^ 8 + (-4) * x ^ 6 + 6 * x ^ 4 + (-4) * x ^ 2 + 1 := fun x => by ring
    simp only [e]
    have j1 := (hL 8).fun_add ((hL 6).const_mul (-4))
    have j2 := j1.fun_add ((hL 4).const_mul 6)
    have j3 := j2.fun_add ((hL 2).const_mul (-4))
    rw [integral_add j3 (integrable_const _), integral_add j2 ((hL 2).const_mul _), integral_add j1 ((hL 4).const_mul _), integral_add (hL 8) ((hL 6).const_mul _),
      integral_const_mul, integral_const_mul, integral_const_mul, m2, m4, m6, m8]
    simp
    norm_num

end Cdmir.Chaos
