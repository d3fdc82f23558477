import Verif.Model.Wald
import Mathlib.Algebra.BigOperators.Field
import Mathlib.LinearAlgebra.Matrix.Notation
import Mathlib.LinearAlgebra.Matrix.NonsingularInverse
import Mathlib.Analysis.Calculus.Deriv.Add
import Mathlib.Analysis.Calculus.Deriv.Mul
import Mathlib.Tactic.Linarith
import Mathlib.Tactic.FieldSimp
import Mathlib.Tactic.NormNum
import Mathlib.Tactic.FinCases

/-! C156: the Wald test of ICA-LiNGAM. -/

namespace Cdmir.Wald
open BigOperators Matrix

variable {d N : Nat}

/-- The identity, flattened. -/
def eyeVec (p : Fin d × Fin d) : ℝ := if p.2 = p.1 then 1 else 0

/-- The function the test needs: the entry `(k, i)` of `y yᵀ - I + y g(y)ᵀ - g(y) yᵀ`. -/
def estimating (g : ℝ → ℝ) (y : Fin d → ℝ) (k i : Fin d) : ℝ := y k * y i - (if k = i then 1 else 0) + y k * g (y i) - g (y k) * y i

/-- C156: what `fk` returns is the squared length of the sources in every entry, minus the identity: it does not depend on the
non-linearity. -/
theorem c156_fk (g : ℝ → ℝ) (Z : Matrix (Fin d) (Fin N) ℝ) (W : Matrix (Fin d) (Fin d) ℝ) (k : Fin N) (p : Fin d × Fin d) :
    fk g Z W k p = ∑ a, (∑ r, W r a * Z r k) ^ 2 - (if p.2 = p.1 then 1 else 0) := by
  unfold fk dot1 src
  simp only [Matrix.of_apply, add_sub_cancel_right, sq]

/-- C156, "the mean of `fk` vanishes at the solution" (as for an estimating function) is false: for white sources the mean of an entry off
the diagonal is the number of variables, of one on the diagonal one less. The mean of the function meant is zero when in addition
`y_k` and `g(y_i)` are uncorrelated. -/
theorem c156_mean_false (g : ℝ → ℝ) {Z : Matrix (Fin d) (Fin N) ℝ} {W : Matrix (Fin d) (Fin d) ℝ} (hN : N ≠ 0)
    (hw : ∀ a b, (∑ k, src Z W k a * src Z W k b) / N = if a = b then 1 else 0) (p : Fin d × Fin d) :
    (∑ k, fk g Z W k p) / N = d - (if p.2 = p.1 then 1 else 0) ∧
    ((∀ a b, a ≠ b → ∑ k, src Z W k a * g (src Z W k b) = 0) → (∑ k, estimating g (src Z W k) p.2 p.1) / N = 0) := by
  have hN' : (N : ℝ) ≠ 0 := Nat.cast_ne_zero.2 hN
  constructor
  · have h1 : ∑ k, fk g Z W k p = ∑ a, ∑ k, src Z W k a * src Z W k a - N * (if p.2 = p.1 then 1 else 0) := by
      rw [Finset.sum_comm]
      simp only [c156_fk, Finset.sum_sub_distrib, src, sq]
      simp
    have h2 : ∀ a, ∑ k, src Z W k a * src Z W k a = N := by
      intro a
      have := hw a a
      rw [if_pos rfl, div_eq_one_iff_eq hN'] at this
      exact this
    rw [h1, Finset.sum_congr rfl fun a _ => h2 a, sub_div, mul_div_cancel_left₀ _ hN']
    simp [hN']
  · intro hg
    have h1 : ∑ k, estimating g (src Z W k) p.2 p.1 = ∑ k, src Z W k p.2 * src Z W k p.1 - N * (if p.2 = p.1 then 1 else 0)
        + ∑ k, src Z W k p.2 * g (src Z W k p.1) - ∑ k, src Z W k p.1 * g (src Z W k p.2) := by
      simp only [estimating, Finset.sum_sub_distrib, Finset.sum_add_distrib]
      simp [mul_comm]
    have h2 := hw p.2 p.1
    rw [div_eq_iff hN'] at h2
    rw [h1, h2]
    by_cases h : p.2 = p.1
    · rw [h]; simp
    · rw [hg _ _ h, hg _ _ (Ne.symm h)]; simp [h]

/-- C156: so the matrix in the middle of the sandwich is made of two vectors, the constant one and the identity, whatever the data. -/
theorem c156_covf (g : ℝ → ℝ) (Z : Matrix (Fin d) (Fin N) ℝ) (W : Matrix (Fin d) (Fin d) ℝ) (hN : N ≠ 0) (p q : Fin d × Fin d) :
    let m := fun e : Nat => (∑ k, (∑ a, (∑ r, W r a * Z r k) ^ 2) ^ e) / (N : ℝ)
    covf g Z W p q = m 2 - m 1 * (eyeVec p + eyeVec q) + eyeVec p * eyeVec q := by
  intro m
  have hN' : (N : ℝ) ≠ 0 := Nat.cast_ne_zero.2 hN
  simp only [covf, Matrix.of_apply, m, c156_fk]
  have : ∀ k, (∑ a, (∑ r, W r a * Z r k) ^ 2 - eyeVec p) * (∑ a, (∑ r, W r a * Z r k) ^ 2 - eyeVec q) =
      (∑ a, (∑ r, W r a * Z r k) ^ 2) ^ 2 - (∑ a, (∑ r, W r a * Z r k) ^ 2) ^ 1 * (eyeVec p + eyeVec q) + eyeVec p * eyeVec q := by
    intro k; ring
  change (∑ k, (∑ a, (∑ r, W r a * Z r k) ^ 2 - eyeVec p) * (∑ a, (∑ r, W r a * Z r k) ^ 2 - eyeVec q)) / (N : ℝ) = _
  rw [Finset.sum_congr rfl fun k _ => this k, Finset.sum_add_distrib, Finset.sum_sub_distrib, ← Finset.sum_mul]
  simp only [Finset.sum_const, Finset.card_univ, Fintype.card_fin, nsmul_eq_mul]
  field_simp

/-- C156: the variance the test uses at a position is the mean square of `q_k u - w` over the samples, divided by their number, where `u`
and `w` are the entries of the inverse of `Q` applied to the two vectors and `q_k` the squared length of the sources: it is never
negative, and zero iff all samples agree or `u = w = 0`. -/
theorem c156_variance (pinv : Matrix (Fin d × Fin d) (Fin d × Fin d) ℝ → Matrix (Fin d × Fin d) (Fin d × Fin d) ℝ) (g dg : ℝ → ℝ)
    (Z : Matrix (Fin d) (Fin N) ℝ) (W : Matrix (Fin d) (Fin d) ℝ) (p : Fin d × Fin d) :
    let R := pinv (computeQ g dg Z W)
    acovW pinv g dg Z W p p =
      (∑ k, ((∑ a, (∑ r, W r a * Z r k) ^ 2) * (∑ q, R p q) - ∑ q, R p q * eyeVec q) ^ 2) / N / N := by
  intro R
  have h : ∀ k, ∑ q, R p q * fk g Z W k q = (∑ a, (∑ r, W r a * Z r k) ^ 2) * (∑ q, R p q) - ∑ q, R p q * eyeVec q := by
    intro k
    rw [Finset.mul_sum, ← Finset.sum_sub_distrib]
    refine Finset.sum_congr rfl fun q _ => ?_
    rw [c156_fk, mul_sub, mul_comm (R p q) (∑ a, _)]
    rfl
  have h2 : (R * covf g Z W * R.transpose) p p = (∑ k, (∑ q, R p q * fk g Z W k q) ^ 2) / N := by
    simp only [Matrix.mul_apply, Matrix.transpose_apply, covf, Matrix.of_apply, sq, Finset.sum_mul_sum]
    rw [Finset.sum_div]
    simp only [Finset.sum_mul, Finset.mul_sum, Finset.sum_div, mul_div_assoc']
    rw [Finset.sum_comm]
    conv_rhs => rw [Finset.sum_comm]
    refine Finset.sum_congr rfl fun q _ => ?_
    conv_rhs => rw [Finset.sum_comm]
    refine Finset.sum_congr rfl fun q' _ => ?_
    refine Finset.sum_congr rfl fun k _ => ?_
    ring
  unfold acovW
  simp only [Matrix.of_apply]
  change (R * covf g Z W * R.transpose) p p / (N : ℝ) = _
  rw [h2]
  simp only [h]

theorem hasDerivAt_tanh (x : ℝ) : HasDerivAt Real.tanh (1 - Real.tanh x ^ 2) x := by
  have h := (Real.hasDerivAt_sinh x).div (Real.hasDerivAt_cosh x) (Real.cosh_pos x).ne'
  have e : (fun x => Real.sinh x / Real.cosh x) = Real.tanh := by
    funext y; rw [Real.tanh_eq_sinh_div_cosh]
  have hf : Real.sinh / Real.cosh = Real.tanh := e
  rw [hf] at h
  refine h.congr_deriv ?_
  rw [Real.tanh_eq_sinh_div_cosh]
  have := (Real.cosh_pos x).ne'
  field_simp

/-- `W` with `t` added to the entry `(r, j)`. -/
def bump (W : Matrix (Fin d) (Fin d) ℝ) (r j : Fin d) (t : ℝ) : Matrix (Fin d) (Fin d) ℝ :=
  Matrix.of fun a b => W a b + if a = r ∧ b = j then t else 0

theorem src_bump (Z : Matrix (Fin d) (Fin N) ℝ) (W : Matrix (Fin d) (Fin d) ℝ) (r j : Fin d) (t : ℝ) (k : Fin N) (a : Fin d) :
    src Z (bump W r j t) k a = src Z W k a + if a = j then t * Z r k else 0 := by
  unfold src bump
  simp only [Matrix.of_apply, add_mul, Finset.sum_add_distrib]
  congr 1
  by_cases h : a = j
  · simp [h]
  · simp [h]

/-- C156: `Q` is right for the function that is meant: if the sources are white and uncorrelated through the non-linearity as independent
ones are, it holds the derivatives of the means of the entries `(k, i)` of that function by the entries `(r, j)` of the weights. -/
theorem c156_derivative {Z : Matrix (Fin d) (Fin N) ℝ} {W : Matrix (Fin d) (Fin d) ℝ}
    (h1 : ∀ r i, (∑ s, Z r s * src Z W s i) / N = W r i)
    (h2 : ∀ r i, (∑ s, Z r s * Real.tanh (src Z W s i)) / N = W r i * ((∑ s, src Z W s i * Real.tanh (src Z W s i)) / N))
    (h3 : ∀ r i j, i ≠ j → (∑ s, Z r s * src Z W s i * (1 - Real.tanh (src Z W s j) ^ 2)) / N =
      W r i * ((∑ s, (1 - Real.tanh (src Z W s j) ^ 2)) / N))
    (i j k r : Fin d) :
    HasDerivAt (fun t => (∑ s, estimating Real.tanh (src Z (bump W r j t) s) k i) / (N : ℝ))
      (computeQ Real.tanh (fun x => 1 - Real.tanh x ^ 2) Z W (i, k) (j, r)) 0 := by
  have hs : ∀ s a, HasDerivAt (fun t => src Z (bump W r j t) s a) (if a = j then Z r s else 0) 0 := by
    intro s a
    simp only [src_bump]
    by_cases h : a = j
    · simp only [if_pos h]
      have := ((hasDerivAt_id (0 : ℝ)).mul_const (Z r s)).const_add (src Z W s a)
      simpa using this
    · simp only [if_neg h]
      simpa using hasDerivAt_const (0 : ℝ) (src Z W s a + 0)
  have h0 : ∀ s a, src Z (bump W r j 0) s a = src Z W s a := by
    intro s a; rw [src_bump]; simp
  have ht : ∀ s a, HasDerivAt (fun t => Real.tanh (src Z (bump W r j t) s a)) ((1 - Real.tanh (src Z W s a) ^ 2) * (if a = j then Z r s else 0)) 0 := by
    intro s a
    have := (hasDerivAt_tanh (src Z (bump W r j 0) s a)).comp 0 (hs s a)
    rw [h0] at this
    exact this
  have he : ∀ s, HasDerivAt (fun t => estimating Real.tanh (src Z (bump W r j t) s) k i)
      ((if k = j then Z r s else 0) * src Z W s i + src Z W s k * (if i = j then Z r s else 0)
        + ((if k = j then Z r s else 0) * Real.tanh (src Z W s i) + src Z W s k * ((1 - Real.tanh (src Z W s i) ^ 2) * (if i = j then Z r s else 0)))
        - ((1 - Real.tanh (src Z W s k) ^ 2) * (if k = j then Z r s else 0) * src Z W s i + Real.tanh (src Z W s k) * (if i = j then Z r s else 0))) 0 := by
    intro s
    have a1 := ((hs s k).mul (hs s i)).sub_const (if k = i then (1 : ℝ) else 0)
    have a2 := (hs s k).mul (ht s i)
    have a3 := (ht s k).mul (hs s i)
    have := (a1.add a2).sub a3
    simp only [h0] at this
    exact this
  have hsum := (HasDerivAt.fun_sum (u := Finset.univ) fun s _ => he s).div_const (N : ℝ)
  refine hsum.congr_deriv ?_
  simp only [computeQ, Matrix.of_apply, qBlock]
  by_cases hij : i = j
  · subst hij
    by_cases hki : k = i
    · subst hki
      simp only [if_true]
      rw [← h1 r k]
      rw [← mul_div_assoc, Finset.mul_sum]
      congr 1
      refine Finset.sum_congr rfl fun s _ => ?_
      ring
    · simp only [if_neg hki, if_true]
      have e : ∀ s, (0 : ℝ) * src Z W s i + src Z W s k * Z r s + (0 * Real.tanh (src Z W s i) + src Z W s k * ((1 - Real.tanh (src Z W s i) ^ 2) * Z r s))
          - ((1 - Real.tanh (src Z W s k) ^ 2) * 0 * src Z W s i + Real.tanh (src Z W s k) * Z r s)
          = Z r s * src Z W s k + Z r s * src Z W s k * (1 - Real.tanh (src Z W s i) ^ 2) - Z r s * Real.tanh (src Z W s k) := by
        intro s; ring
      rw [Finset.sum_congr rfl fun s _ => e s, Finset.sum_sub_distrib, Finset.sum_add_distrib, sub_div, add_div, h1, h2, h3 r k i hki]
      ring
  · simp only [if_neg hij]
    by_cases hkj : k = j
    · subst hkj
      simp only [if_true]
      have e : ∀ s, Z r s * src Z W s i + src Z W s k * 0 + (Z r s * Real.tanh (src Z W s i) + src Z W s k * ((1 - Real.tanh (src Z W s i) ^ 2) * 0))
          - ((1 - Real.tanh (src Z W s k) ^ 2) * Z r s * src Z W s i + Real.tanh (src Z W s k) * 0)
          = Z r s * src Z W s i + Z r s * Real.tanh (src Z W s i) - Z r s * src Z W s i * (1 - Real.tanh (src Z W s k) ^ 2) := by
        intro s; ring
      rw [Finset.sum_congr rfl fun s _ => e s, Finset.sum_sub_distrib, Finset.sum_add_distrib, sub_div, add_div, h1, h2, h3 r i k hij]
      ring
    · simp [if_neg hkj]

/-- C156: with a decomposition as numpy gives it for a covariance matrix of full rank, the data are whitened, up to the mean, which is not
subtracted: the second moments of `Z` are those of white data plus those of the mean. -/
theorem c156_white {svd : Matrix (Fin d) (Fin d) ℝ → Matrix (Fin d) (Fin d) ℝ × (Fin d → ℝ) × Matrix (Fin d) (Fin d) ℝ} {X : Matrix (Fin d) (Fin N) ℝ}
    {E : Matrix (Fin d) (Fin d) ℝ} {D : Fin d → ℝ} (hsvd : svd (cov X) = (E, D, E.transpose)) (hE : E.transpose * E = 1) (hD : ∀ i, 0 < D i)
    (hC : cov X = E * Matrix.diagonal D * E.transpose) (hN : 1 < N) :
    let V := whiten svd X
    V * cov X * V.transpose = 1 ∧
      ∀ i j, (∑ s, (V * X) i s * (V * X) j s) / N =
        (N - 1) / N * (if i = j then 1 else 0) + ((∑ s, (V * X) i s) / N) * ((∑ s, (V * X) j s) / N) := by
  intro V
  have hV : V = E * Matrix.diagonal (fun i => (Real.sqrt (D i))⁻¹) * E.transpose := by
    simp only [V, whiten, hsvd]
  have hEE : E * E.transpose = 1 := mul_eq_one_comm.1 hE
  have hone : V * cov X * V.transpose = 1 := by
    rw [hC, hV]
    rw [Matrix.transpose_mul, Matrix.transpose_mul, Matrix.transpose_transpose, Matrix.diagonal_transpose]
    calc E * diagonal (fun i => (Real.sqrt (D i))⁻¹) * E.transpose * (E * diagonal D * E.transpose) *
          (E * (diagonal (fun i => (Real.sqrt (D i))⁻¹) * E.transpose))
        = E * diagonal (fun i => (Real.sqrt (D i))⁻¹) * (E.transpose * E) * diagonal D * (E.transpose * E) *
          diagonal (fun i => (Real.sqrt (D i))⁻¹) * E.transpose := by simp only [Matrix.mul_assoc]
      _ = E * (diagonal (fun i => (Real.sqrt (D i))⁻¹) * diagonal D * diagonal (fun i => (Real.sqrt (D i))⁻¹)) * E.transpose := by
          rw [hE, Matrix.mul_one, Matrix.mul_one]; simp only [Matrix.mul_assoc]
      _ = 1 := by
          rw [Matrix.diagonal_mul_diagonal, Matrix.diagonal_mul_diagonal]
          have : (fun i => (Real.sqrt (D i))⁻¹ * D i * (Real.sqrt (D i))⁻¹) = fun _ => (1 : ℝ) := by
            funext i
            have h := Real.mul_self_sqrt (hD i).le
            have h' := (Real.sqrt_pos.2 (hD i)).ne'
            field_simp
            rw [sq, h]
          rw [this, Matrix.diagonal_one, Matrix.mul_one, hEE]
  refine ⟨hone, fun i j => ?_⟩
  have hN0 : (N : ℝ) ≠ 0 := by positivity
  have hN1 : (N : ℝ) - 1 ≠ 0 := by
    have : (1 : ℝ) < N := by exact_mod_cast hN
    linarith
  -- the covariance of the transformed data
  set Y := V * X with hY
  have hcY : cov Y i j = (V * cov X * V.transpose) i j := by
    have hm : ∀ i, (∑ s, Y i s) / (N : ℝ) = ∑ a, V i a * ((∑ s, X a s) / N) := by
      intro i
      simp only [hY, Matrix.mul_apply]
      rw [Finset.sum_comm, Finset.sum_div]
      refine Finset.sum_congr rfl fun a _ => ?_
      rw [← Finset.mul_sum, mul_div_assoc]
    have hc : ∀ i s, Y i s - (∑ s, Y i s) / (N : ℝ) = ∑ a, V i a * (X a s - (∑ s, X a s) / N) := by
      intro i s
      rw [hm]
      simp only [hY, Matrix.mul_apply, mul_sub, Finset.sum_sub_distrib]
    let Xc : Matrix (Fin d) (Fin N) ℝ := Matrix.of fun a s => X a s - (∑ s, X a s) / N
    let Yc : Matrix (Fin d) (Fin N) ℝ := Matrix.of fun a s => Y a s - (∑ s, Y a s) / N
    have hX : cov X = ((N : ℝ) - 1)⁻¹ • (Xc * Xc.transpose) := by
      ext a b
      simp only [cov, Xc, Matrix.of_apply, Matrix.smul_apply, Matrix.mul_apply, Matrix.transpose_apply, smul_eq_mul]
      rw [div_eq_inv_mul]
    have hYc : cov Y = ((N : ℝ) - 1)⁻¹ • (Yc * Yc.transpose) := by
      ext a b
      simp only [cov, Yc, Matrix.of_apply, Matrix.smul_apply, Matrix.mul_apply, Matrix.transpose_apply, smul_eq_mul]
      rw [div_eq_inv_mul]
    have hV' : Yc = V * Xc := by
      ext a s
      simp only [Yc, Matrix.of_apply, Matrix.mul_apply]
      exact hc a s
    rw [hX, hYc, hV', Matrix.transpose_mul, Matrix.mul_smul, Matrix.smul_mul]
    simp only [Matrix.mul_assoc]
  rw [hone] at hcY
  simp only [cov, Matrix.of_apply, Matrix.one_apply] at hcY
  have hexp : ∑ s, (Y i s - (∑ s, Y i s) / (N : ℝ)) * (Y j s - (∑ s, Y j s) / (N : ℝ)) =
      ∑ s, Y i s * Y j s - N * (((∑ s, Y i s) / N) * ((∑ s, Y j s) / N)) := by
    set mi := (∑ s, Y i s) / (N : ℝ) with hmi
    set mj := (∑ s, Y j s) / (N : ℝ) with hmj
    have hi : ∑ s, Y i s = N * mi := by rw [hmi]; field_simp
    have hj : ∑ s, Y j s = N * mj := by rw [hmj]; field_simp
    have : ∀ s, (Y i s - mi) * (Y j s - mj) = Y i s * Y j s - mi * Y j s - Y i s * mj + mi * mj := fun s => by ring
    rw [Finset.sum_congr rfl fun s _ => this s, Finset.sum_add_distrib, Finset.sum_sub_distrib, Finset.sum_sub_distrib,
      ← Finset.mul_sum, ← Finset.sum_mul, hi, hj]
    simp
    ring
  rw [hexp, div_eq_iff hN1] at hcY
  rw [div_eq_iff hN0]
  have : ∑ s, Y i s * Y j s = (if i = j then 1 else 0) * ((N : ℝ) - 1) + N * (((∑ s, Y i s) / N) * ((∑ s, Y j s) / N)) := by linarith
  rw [this]
  field_simp

/-- C156: the sources behind the variances are `W x` for the records `x`, as given. -/
theorem c156_sources {V W : Matrix (Fin d) (Fin d) ℝ} {pinvD : Matrix (Fin d) (Fin d) ℝ → Matrix (Fin d) (Fin d) ℝ}
    (hp : V.transpose * pinvD V.transpose = 1) (X : Matrix (Fin d) (Fin N) ℝ) (k : Fin N) (a : Fin d) :
    src (V * X) (pinvD V.transpose * W.transpose) k a = ∑ r, W a r * X r k := by
  have h : ((pinvD V.transpose * W.transpose).transpose * (V * X)) a k = (W * X) a k := by
    rw [Matrix.transpose_mul, Matrix.transpose_transpose]
    have h1 : (pinvD V.transpose).transpose * V = 1 := by
      have := congrArg Matrix.transpose hp
      rw [Matrix.transpose_mul, Matrix.transpose_transpose, Matrix.transpose_one] at this
      exact this
    rw [Matrix.mul_assoc, ← Matrix.mul_assoc _ V X, h1, Matrix.one_mul]
  exact h

theorem calcwald_at (cdf : ℝ → ℝ) (acov : Matrix (Fin d × Fin d) (Fin d × Fin d) ℝ) (W : Matrix (Fin d) (Fin d) ℝ) (a b : Fin d) :
    calcwald cdf acov W a b = 1 - cdf (W a b ^ 2 / acov (b, a) (b, a)) := rfl

/-- What a record adds to the estimate of the weights of the whitened data: the inverse of `Q` applied to `fk`, put back into the shape
of those weights (position `dim * i + r` is the entry `(r, i)`). -/
noncomputable def influence (pinv : Matrix (Fin d × Fin d) (Fin d × Fin d) ℝ → Matrix (Fin d × Fin d) (Fin d × Fin d) ℝ) (g dg : ℝ → ℝ)
    (Z : Matrix (Fin d) (Fin N) ℝ) (W : Matrix (Fin d) (Fin d) ℝ) (k : Fin N) : Matrix (Fin d) (Fin d) ℝ :=
  Matrix.of fun r i => ∑ q, pinv (computeQ g dg Z W) (i, r) q * fk g Z W k q

/-- C156, "the entry `(a, b)` of the weights is compared with its own variance" is false: the influence of a record on `W` is the transpose
of `V.T` times the influence on the whitened weights, and the statistic of the entry `(a, b)` is its square over the mean square of
the influences on the entry `(b, a)`. The diagonal is reshaped by rows, which already is the order of `W`, and then transposed. -/
theorem c156_transposed_false (cdf : ℝ → ℝ) (svd : Matrix (Fin d) (Fin d) ℝ → Matrix (Fin d) (Fin d) ℝ × (Fin d → ℝ) × Matrix (Fin d) (Fin d) ℝ)
    (pinvD : Matrix (Fin d) (Fin d) ℝ → Matrix (Fin d) (Fin d) ℝ)
    (pinv : Matrix (Fin d × Fin d) (Fin d × Fin d) ℝ → Matrix (Fin d × Fin d) (Fin d × Fin d) ℝ) (g dg : ℝ → ℝ)
    (X : Matrix (Fin d) (Fin N) ℝ) (W : Matrix (Fin d) (Fin d) ℝ) (a b : Fin d) :
    let V := whiten svd X
    let onW := fun k => (V.transpose * influence pinv g dg (V * X) (pinvD V.transpose * W.transpose) k).transpose
    calcwald cdf (acovB svd pinvD pinv g dg X W.transpose) W a b = 1 - cdf (W a b ^ 2 / ((∑ k, onW k b a ^ 2) / N / N)) := by
  intro V onW
  rw [calcwald_at]
  congr 3
  set Wt := pinvD V.transpose * W.transpose with hWt
  set R := pinv (computeQ g dg (V * X) Wt) with hR
  have hA : ∀ p q, acovW pinv g dg (V * X) Wt p q = (∑ k, (∑ t, R p t * fk g (V * X) Wt k t) * (∑ t, R q t * fk g (V * X) Wt k t)) / N / N := by
    intro p q
    unfold acovW
    simp only [Matrix.of_apply]
    change (R * covf g (V * X) Wt * R.transpose) p q / (N : ℝ) = _
    congr 1
    simp only [Matrix.mul_apply, Matrix.transpose_apply, covf, Matrix.of_apply, Finset.sum_mul_sum]
    simp only [Finset.sum_mul, Finset.mul_sum, Finset.sum_div, mul_div_assoc']
    rw [Finset.sum_comm]
    conv_rhs => rw [Finset.sum_comm]
    refine Finset.sum_congr rfl fun t _ => ?_
    conv_rhs => rw [Finset.sum_comm]
    refine Finset.sum_congr rfl fun t' _ => Finset.sum_congr rfl fun k _ => ?_
    ring
  have hG : ∀ A : Matrix (Fin d × Fin d) (Fin d × Fin d) ℝ,
      (Matrix.of (fun p q : Fin d × Fin d => if p.1 = q.1 then V.transpose p.2 q.2 else 0) * A *
        (Matrix.of fun p q : Fin d × Fin d => if p.1 = q.1 then V.transpose p.2 q.2 else 0).transpose) (b, a) (b, a) =
      ∑ r, ∑ r', V.transpose a r * A (b, r) (b, r') * V.transpose a r' := by
    intro A
    simp only [Matrix.mul_apply, Matrix.transpose_apply, Matrix.of_apply, Fintype.sum_prod_type]
    simp only [ite_mul, zero_mul, mul_ite, mul_zero, Finset.sum_ite_irrel, Finset.sum_const_zero, Finset.sum_ite_eq, Finset.mem_univ, if_true]
    simp only [Finset.sum_mul]
    rw [Finset.sum_comm]
  have hB : acovB svd pinvD pinv g dg X W.transpose (b, a) (b, a) = ∑ r, ∑ r', V.transpose a r * acovW pinv g dg (V * X) Wt (b, r) (b, r') * V.transpose a r' :=
    hG _
  rw [hB]
  have hO : ∀ k, onW k b a = ∑ r, V.transpose a r * ∑ t, R (b, r) t * fk g (V * X) Wt k t := by
    intro k
    simp only [onW, Matrix.transpose_apply, Matrix.mul_apply, influence, Matrix.of_apply]
    rfl
  simp only [hO, hA, sq, Finset.sum_mul_sum, Finset.sum_div]
  rw [Finset.sum_comm (s := Finset.univ (α := Fin N))]
  refine Finset.sum_congr rfl fun r _ => ?_
  rw [Finset.sum_comm (s := Finset.univ (α := Fin N))]
  refine Finset.sum_congr rfl fun r' _ => ?_
  simp only [← Finset.sum_div]
  rw [mul_div_assoc', mul_div_assoc', div_mul_eq_mul_div, div_mul_eq_mul_div, Finset.mul_sum, Finset.sum_mul]
  congr 2
  refine Finset.sum_congr rfl fun k _ => ?_
  rw [← Finset.sum_mul_sum]
  ring

/-- With variances 1 and 4 of the two entries off the diagonal, both equal to 3, the statistics are exchanged: 9/4 and 9 instead of 9 and
9/4. -/
example : let acov : Matrix (Fin 2 × Fin 2) (Fin 2 × Fin 2) ℝ := Matrix.of fun p q => if p = q then (if p = (0, 1) then 1 else 4) else 0
    calcwald id acov !![1, 3; 3, 1] 0 1 = 1 - 9 / 4 ∧ calcwald id acov !![1, 3; 3, 1] 1 0 = 1 - 9 ∧
      1 - id ((!![1, 3; 3, 1] : Matrix (Fin 2) (Fin 2) ℝ) 0 1 ^ 2 / acov (0, 1) (0, 1)) = 1 - 9 := by
  intro acov
  simp only [calcwald_at]
  simp [acov]
  norm_num

/-- White sources of four records: (1, 1), (1, -1), (-1, 1), (-1, -1); any odd function of one is uncorrelated with the other. -/
example : let Z : Matrix (Fin 2) (Fin 4) ℝ := !![1, 1, -1, -1; 1, -1, 1, -1]
    (∀ a b, (∑ k, src Z 1 k a * src Z 1 k b) / (4 : ℕ) = if a = b then 1 else 0) ∧
      (∑ k, fk Real.tanh Z 1 k (0, 1)) / (4 : ℕ) = 2 ∧ (∑ k, estimating Real.tanh (src Z 1 k) 0 1) / (4 : ℕ) = 0 := by
  intro Z
  have hs : ∀ k a, src Z 1 k a = Z a k := by
    intro k a
    simp [src, Matrix.one_apply]
  have hw : ∀ a b, (∑ k, src Z 1 k a * src Z 1 k b) / (4 : ℕ) = if a = b then (1 : ℝ) else 0 := by
    intro a b
    simp only [hs, Fin.sum_univ_four, Z]
    fin_cases a <;> fin_cases b <;> simp <;> norm_num
  have hm := c156_mean_false Real.tanh (by norm_num : 4 ≠ 0) hw
  refine ⟨hw, by simpa using (hm (0, 1)).1, (hm (1, 0)).2 ?_⟩
  intro a b hab
  simp only [hs, Fin.sum_univ_four, Z]
  fin_cases a <;> fin_cases b <;> simp [Real.tanh_neg] at hab ⊢

end Cdmir.Wald
