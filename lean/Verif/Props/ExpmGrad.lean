import Verif.Props.Expm
import Mathlib.Analysis.SpecialFunctions.Exponential
import Mathlib.Analysis.Calculus.Deriv.Pi
import Mathlib.LinearAlgebra.Matrix.Reindex
import Mathlib.LinearAlgebra.Matrix.Trace
import Mathlib.Topology.Instances.Matrix

/-! C122: the derivative of the matrix exponential (`differential` and `backward`). -/

namespace Cdmir.Expm
open Finset NormedSpace Matrix
open scoped Topology Matrix.Norms.Operator

variable {n : ℕ}

/-- Matrices of two by two blocks. -/
abbrev Blk (n : ℕ) := Matrix (Fin n ⊕ Fin n) (Fin n ⊕ Fin n) ℝ

/-- A block diagonal matrix, as a ring homomorphism. -/
def diagHom (n : ℕ) : Mat n × Mat n →+* Blk n where
  toFun p := fromBlocks p.1 0 0 p.2
  map_one' := by simp [fromBlocks_one]
  map_zero' := by simp [fromBlocks_zero]
  map_add' p q := by simp [fromBlocks_add]
  map_mul' p q := by simp [fromBlocks_multiply]

theorem exp_diag (A B : Mat n) : exp (fromBlocks A 0 0 B : Blk n) = fromBlocks (exp A) 0 0 (exp B) := by
  let _ : NormedAlgebra ℚ (Mat n) := NormedAlgebra.restrictScalars ℚ ℝ (Mat n)
  have hc : Continuous (diagHom n) := Continuous.matrix_fromBlocks continuous_fst continuous_const continuous_const continuous_snd
  have h := map_exp (diagHom n) hc (A, B)
  rw [show diagHom n (A, B) = fromBlocks A 0 0 B from rfl] at h
  refine h.symm.trans ?_
  show fromBlocks _ 0 0 _ = _
  rw [Prod.fst_exp, Prod.snd_exp]
  rfl

theorem exp_block {A E : Mat n} {t : ℝ} (ht : t ≠ 0) :
    (exp (fromBlocks A E 0 (A + t • E) : Blk n)).toBlocks₁₂ = t⁻¹ • (exp (A + t • E) - exp A) := by
  let U : (Blk n)ˣ := ⟨fromBlocks 1 (t⁻¹ • 1) 0 1, fromBlocks 1 (-(t⁻¹ • 1)) 0 1, by simp [fromBlocks_multiply, fromBlocks_one],
    by simp [fromBlocks_multiply, fromBlocks_one]⟩
  have e : (fromBlocks A E 0 (A + t • E) : Blk n) = (U : Blk n) * fromBlocks A 0 0 (A + t • E) * ((U⁻¹ : (Blk n)ˣ) : Blk n) := by
    show _ = fromBlocks 1 (t⁻¹ • 1) 0 1 * fromBlocks A 0 0 (A + t • E) * fromBlocks 1 (-(t⁻¹ • 1)) 0 1
    simp only [fromBlocks_multiply]
    simp [smul_smul, ht]
  rw [e, Matrix.exp_units_conj, exp_diag]
  show (fromBlocks 1 (t⁻¹ • 1) 0 1 * fromBlocks (exp A) 0 0 (exp (A + t • E)) * fromBlocks 1 (-(t⁻¹ • 1)) 0 1).toBlocks₁₂ = _
  simp only [fromBlocks_multiply]
  simp [smul_sub]
  abel

theorem exp_reindex (M : Blk n) :
    exp (reindex finSumFinEquiv finSumFinEquiv M) = reindex finSumFinEquiv finSumFinEquiv (exp M) := by
  let _ : NormedAlgebra ℚ (Blk n) := NormedAlgebra.restrictScalars ℚ ℝ (Blk n)
  have hc : Continuous (reindexAlgEquiv ℝ ℝ (finSumFinEquiv (m := n) (n := n)) : Blk n →+* Mat (n + n)) := by
    exact Continuous.matrix_reindex continuous_id _ _
  exact (map_exp (reindexAlgEquiv ℝ ℝ (finSumFinEquiv (m := n) (n := n)) : Blk n →+* Mat (n + n)) hc M).symm

theorem upperRight_reindex (M : Blk n) : upperRight (reindex finSumFinEquiv finSumFinEquiv M) = M.toBlocks₁₂ := by
  ext i j
  simp only [upperRight, toBlocks₁₂, Matrix.of_apply, reindex_apply, submatrix_apply, finSumFinEquiv_symm_apply_castAdd, finSumFinEquiv_symm_apply_natAdd]

theorem differential_exp (A E : Mat n) : differential exp A E = (exp (fromBlocks A E 0 A : Blk n)).toBlocks₁₂ := by
  rw [differential, doubled, exp_reindex, upperRight_reindex]

/-- **C122.** With the exponential, `differential` is the derivative of the exponential. -/
theorem c122_derivative (A E : Mat n) : HasDerivAt (fun t : ℝ => exp (A + t • E)) (differential exp A E) 0 := by
  rw [differential_exp]
  refine hasDerivAt_iff_tendsto_slope_zero.2 ?_
  have hcont : Continuous fun t : ℝ => (exp (fromBlocks A E 0 (A + t • E) : Blk n)).toBlocks₁₂ := by
    let _ : NormedAlgebra ℚ (Blk n) := NormedAlgebra.restrictScalars ℚ ℝ (Blk n)
    have h1 : Continuous fun t : ℝ => exp (fromBlocks A E 0 (A + t • E) : Blk n) := by
      refine exp_continuous.comp ?_
      exact Continuous.matrix_fromBlocks continuous_const continuous_const continuous_const
        (continuous_const.add (continuous_id.smul continuous_const))
    exact h1.matrix_submatrix Sum.inl Sum.inr
  have h0 := hcont.tendsto 0
  rw [zero_smul, add_zero] at h0
  refine (h0.mono_left nhdsWithin_le_nhds).congr' ?_
  filter_upwards [self_mem_nhdsWithin] with t ht
  rw [exp_block ht, zero_add, zero_smul, add_zero]

/-- At zero the derivative is the direction itself. -/
example : HasDerivAt (fun t : ℝ => exp ((0 : Mat 2) + t • !![1, 2; 3, 4])) !![1, 2; 3, 4] 0 := by
  have h := c122_derivative (0 : Mat 2) !![1, 2; 3, 4]
  have h1 := hasDerivAt_exp_smul_const (𝕂 := ℝ) (!![1, 2; 3, 4] : Mat 2) 0
  simp only [zero_add] at h ⊢
  rw [zero_smul, exp_zero, one_mul] at h1
  exact h1

theorem block_pow (A E : Mat n) (k : ℕ) :
    (fromBlocks A E 0 A : Blk n) ^ k = fromBlocks (A ^ k) (∑ i ∈ range k, A ^ i * E * A ^ (k - 1 - i)) 0 (A ^ k) := by
  induction k with
  | zero => simp [fromBlocks_one]
  | succ k ih =>
    rw [pow_succ, ih, fromBlocks_multiply]
    congr 1
    · simp [pow_succ]
    · rw [sum_range_succ, add_comm, sum_mul]
      congr 1
      · refine sum_congr rfl fun i hi => ?_
        rw [mem_range] at hi
        rw [mul_assoc, ← pow_succ]
        congr 2
        omega
      · simp
    · simp
    · simp [pow_succ]

/-- The sum of the products of the entries of two matrices. -/
def inner (G X : Mat n) : ℝ := ∑ i, ∑ j, G i j * X i j

theorem inner_trace (G X : Mat n) : inner G X = (Gᵀ * X).trace := by
  simp only [inner, Matrix.trace, Matrix.diag, Matrix.mul_apply, Matrix.transpose_apply]
  exact sum_comm

theorem inner_sum (G : Mat n) (s : Finset ℕ) (f : ℕ → Mat n) : inner G (∑ k ∈ s, f k) = ∑ k ∈ s, inner G (f k) := by
  simp only [inner_trace, Matrix.mul_sum, Matrix.trace_sum]

theorem inner_comm (G X : Mat n) : inner G X = inner X G := by
  simp only [inner, mul_comm]

theorem inner_pow (A E G : Mat n) (k : ℕ) :
    inner G (((fromBlocks A E 0 A : Blk n) ^ k).toBlocks₁₂) = inner (((fromBlocks Aᵀ G 0 Aᵀ : Blk n) ^ k).toBlocks₁₂) E := by
  rw [block_pow, block_pow, toBlocks_fromBlocks₁₂, toBlocks_fromBlocks₁₂, inner_sum, inner_comm _ E, inner_sum]
  refine sum_congr rfl fun i _ => ?_
  rw [inner_comm E, inner_trace, inner_trace]
  simp only [Matrix.transpose_mul, Matrix.transpose_pow, Matrix.transpose_transpose]
  rw [← Matrix.mul_assoc, Matrix.trace_mul_comm, ← Matrix.mul_assoc]
  simp only [Matrix.mul_assoc]

theorem hasSum_block (A E G : Mat n) :
    HasSum (fun k : ℕ => (k.factorial : ℝ)⁻¹ * inner G (((fromBlocks A E 0 A : Blk n) ^ k).toBlocks₁₂)) (inner G (differential exp A E)) := by
  rw [differential_exp]
  have h := exp_series_hasSum_exp' (𝕂 := ℝ) (fromBlocks A E 0 A : Blk n)
  let φ : Blk n →+ ℝ :=
    { toFun := fun M => inner G M.toBlocks₁₂
      map_zero' := by simp [inner, toBlocks₁₂]
      map_add' := fun M N => by simp [inner, toBlocks₁₂, mul_add, sum_add_distrib] }
  have hφ : Continuous φ := by
    show Continuous fun M : Blk n => ∑ i, ∑ j, G i j * M (Sum.inl i) (Sum.inr j)
    fun_prop
  have h2 := h.map φ hφ
  convert h2 using 1
  swap
  · rfl
  funext k
  show _ = inner G (((k.factorial : ℝ)⁻¹ • (fromBlocks A E 0 A : Blk n) ^ k).toBlocks₁₂)
  simp only [inner, toBlocks₁₂, Matrix.of_apply, Matrix.smul_apply, smul_eq_mul, mul_sum]
  refine sum_congr rfl fun i _ => sum_congr rfl fun j _ => ?_
  ring

theorem inner_differential (A E G : Mat n) : inner G (differential exp A E) = inner (differential exp Aᵀ G) E := by
  have h1 := hasSum_block A E G
  have h2 := hasSum_block Aᵀ G E
  simp only [inner_pow A E G] at h1
  rw [inner_comm E] at h2
  simp only [inner_comm E] at h2
  exact h1.unique h2

theorem differential_zero (E : Mat n) : differential exp 0 E = E := by
  have h1 := c122_derivative 0 E
  have h2 := hasDerivAt_exp_smul_const (𝕂 := ℝ) E 0
  simp only [zero_add] at h1
  rw [zero_smul, exp_zero, one_mul] at h2
  exact h1.unique h2

theorem backward_eq (A G : Mat n) : backward exp A G = differential exp Aᵀ G := by
  rw [backward]
  split_ifs with h
  · rw [h, Matrix.transpose_zero, differential_zero]
  · rfl

/-- **C122.** `backward` is the gradient: of any loss whose gradient with respect to the exponential is `G`, the derivative along `E` is the sum of
the products of the entries of `backward` and `E`. -/
theorem c122_gradient (A E G : Mat n) :
    HasDerivAt (fun t : ℝ => ∑ i, ∑ j, G i j * exp (A + t • E) i j) (∑ i, ∑ j, backward exp A G i j * E i j) 0 := by
  have h := inner_differential A E G
  rw [← backward_eq] at h
  show HasDerivAt _ (inner (backward exp A G) E) 0
  rw [← h]
  have hd := c122_derivative A E
  refine HasDerivAt.fun_sum fun i _ => HasDerivAt.fun_sum fun j _ => ?_
  refine HasDerivAt.const_mul _ ?_
  have h1 := hasDerivAt_iff_tendsto_slope_zero.1 hd
  refine hasDerivAt_iff_tendsto_slope_zero.2 ?_
  have h2 : Continuous fun M : Mat n => M i j := by fun_prop
  exact (h2.tendsto _).comp h1

/-- The gradient of the trace of the exponential, the constraint of NOTEARS, at a matrix that is not zero. -/
example (E : Mat 2) : HasDerivAt (fun t : ℝ => ∑ i, ∑ j, (1 : Mat 2) i j * exp ((!![0, 1; 0, 0] : Mat 2) + t • E) i j)
    (∑ i, ∑ j, backward exp !![0, 1; 0, 0] 1 i j * E i j) 0 := c122_gradient _ E 1

theorem sumNorm_doubled (A E : Mat n) : sumNorm (doubled A E) = 2 * sumNorm A + sumNorm E := by
  simp only [sumNorm, doubled, reindex_apply, submatrix_apply]
  rw [← (finSumFinEquiv (m := n) (n := n)).sum_comp]
  simp only [← (finSumFinEquiv (m := n) (n := n)).sum_comp, Equiv.symm_apply_apply, Fintype.sum_sum_type, fromBlocks_apply₁₁, fromBlocks_apply₁₂,
    fromBlocks_apply₂₁, fromBlocks_apply₂₂, Matrix.zero_apply, abs_zero, sum_const_zero, sum_add_distrib]
  ring

/-- **C122.** With the code's own `expm_taylor` the gradient is close to the exact one. -/
theorem c122_code (precise : Bool) (A G : Mat n) {ε μ : ℝ} (hε : ε = if precise then 1 / 2 ^ 51 else 1 / 2 ^ 23)
    (hμ : μ = 2 * ∑ i, ∑ j, |A i j| + ∑ i, ∑ j, |G i j|) {f : Mat (n + n) → Mat (n + n)} (hf : ∀ M, expmTaylor precise M = some (f M)) :
    ∀ i, ∑ j, |backward f A G i j - backward exp A G i j| ≤ ε * μ * Real.exp ((1 + ε) * μ) := by
  have hε0 : 0 ≤ ε := by rw [hε]; split_ifs <;> norm_num
  have hμ0 : 0 ≤ μ := by
    rw [hμ]
    have h1 : 0 ≤ ∑ i, ∑ j, |A i j| := sum_nonneg fun _ _ => sum_nonneg fun _ _ => abs_nonneg _
    have h2 : 0 ≤ ∑ i, ∑ j, |G i j| := sum_nonneg fun _ _ => sum_nonneg fun _ _ => abs_nonneg _
    linarith
  intro i
  unfold backward
  split_ifs with h
  · simp only [sub_self, abs_zero, sum_const_zero]
    positivity
  · have hs : sumNorm Aᵀ = ∑ i, ∑ j, |A i j| := by
      simp only [sumNorm, transpose_apply]
      exact sum_comm
    obtain ⟨X, hX, hb⟩ := c120_single precise (doubled Aᵀ G) hε (ν := μ) (by
      have := sumNorm_doubled Aᵀ G
      rw [hs] at this
      rw [hμ]
      exact this.symm)
    rw [hf] at hX
    injection hX with hX
    subst hX
    refine le_trans ?_ (hb (Fin.castAdd n i))
    rw [← (finSumFinEquiv (m := n) (n := n)).sum_comp, Fintype.sum_sum_type]
    exact le_add_of_nonneg_left (sum_nonneg fun _ _ => abs_nonneg _)

/-- There is such an `f`, and for a matrix and a gradient of total size one the error is below one over 2 to the 49. -/
example : ∃ f : Mat (2 + 2) → Mat (2 + 2), (∀ M, expmTaylor true M = some (f M)) ∧
    ∀ i, ∑ j, |backward f !![0, 1 / 4; 0, 0] !![0, 0; 1 / 2, 0] i j - backward exp !![0, 1 / 4; 0, 0] !![0, 0; 1 / 2, 0] i j| ≤ 1 / 2 ^ 49 := by
  choose f hf _ using fun M : Mat (2 + 2) => c120_single true M rfl rfl
  refine ⟨f, hf, fun i => ?_⟩
  have h := c122_code true !![0, 1 / 4; 0, 0] !![0, 0; 1 / 2, 0] (ε := 1 / 2 ^ 51) (μ := 1) (by norm_num) (by norm_num [Fin.sum_univ_two]) hf i
  refine h.trans ?_
  have h2 : Real.exp ((1 + 1 / 2 ^ 51) * 1) ≤ 4 := by
    have h3 : Real.exp ((1 + 1 / 2 ^ 51) * 1) ≤ Real.exp 1 * Real.exp (1 / 4) := by
      rw [← Real.exp_add]; exact Real.exp_le_exp.2 (by norm_num)
    have h4 := Real.exp_one_lt_d9
    have h5 : Real.exp (1 / 4) ≤ 1.4 := exp_le_small (by norm_num) (by norm_num) (by norm_num)
    have h6 : Real.exp 1 * Real.exp (1 / 4) ≤ 2.7182818286 * 1.4 := mul_le_mul h4.le h5 (Real.exp_pos _).le (by norm_num)
    exact h3.trans (h6.trans (by norm_num))
  calc 1 / 2 ^ 51 * 1 * Real.exp ((1 + 1 / 2 ^ 51) * 1) ≤ 1 / 2 ^ 51 * 1 * 4 := mul_le_mul_of_nonneg_left h2 (by norm_num)
    _ = 1 / 2 ^ 49 := by norm_num

end Cdmir.Expm
