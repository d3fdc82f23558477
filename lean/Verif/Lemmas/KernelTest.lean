import Verif.Model.KernelTest
import Verif.Props.Kernel
import Mathlib.Analysis.Matrix.Order
import Mathlib.Analysis.SpecialFunctions.Exponential
import Mathlib.Algebra.BigOperators.Ring.Finset
import Mathlib.Tactic.Positivity

/-! Lemmas about Gaussian kernel matrices and centring. -/

namespace Cdmir.KTest
open BigOperators

variable {n d e : Nat}

theorem gramDist_eq (X : Data n d) (i j : Fin n) : gramDist X i j = sqDist X i j := by
  unfold gramDist sqDist
  rw [Finset.mul_sum, ← Finset.sum_add_distrib, ← Finset.sum_sub_distrib]
  exact Finset.sum_congr rfl fun k _ => by ring

theorem sqDist_comm (X : Data n d) (i j : Fin n) : sqDist X i j = sqDist X j i :=
  Finset.sum_congr rfl fun k _ => by ring

theorem sqDist_self (X : Data n d) (i : Fin n) : sqDist X i i = 0 := by simp [sqDist]

theorem sqDist_nonneg (X : Data n d) (i j : Fin n) : 0 ≤ sqDist X i j := Finset.sum_nonneg fun _ _ => sq_nonneg _

theorem sqDist_eq_zero {X : Data n d} {i j : Fin n} : sqDist X i j = 0 ↔ X i = X j := by
  unfold sqDist
  rw [Finset.sum_eq_zero_iff_of_nonneg fun k _ => sq_nonneg _]
  constructor
  · intro h
    funext k
    have := h k (Finset.mem_univ k)
    have := pow_eq_zero_iff (two_ne_zero) |>.1 this
    linarith
  · intro h k _
    rw [h]
    ring

/-- The powers of inner products are nonnegative on vectors. -/
theorem quad_pow (X : Data n d) (c : Fin n → ℝ) (m : Nat) : 0 ≤ ∑ i, ∑ j, c i * c j * (∑ k, X i k * X j k) ^ m := by
  have key : ∀ i j, (∑ k, X i k * X j k) ^ m = ∑ f : Fin m → Fin d, (∏ a, X i (f a)) * ∏ a, X j (f a) := by
    intro i j
    have h1 : (∑ k, X i k * X j k) ^ m = ∏ _a : Fin m, ∑ k, X i k * X j k := by simp
    rw [h1, Finset.prod_univ_sum]
    simp only [Fintype.piFinset_univ]
    exact Finset.sum_congr rfl fun f _ => Finset.prod_mul_distrib
  have h2 : ∑ i, ∑ j, c i * c j * (∑ k, X i k * X j k) ^ m = ∑ f : Fin m → Fin d, (∑ i, c i * ∏ a, X i (f a)) ^ 2 := by
    simp only [key, Finset.mul_sum, sq, Finset.sum_mul]
    rw [Finset.sum_comm (s := (Finset.univ : Finset (Fin m → Fin d)))]
    refine Finset.sum_congr rfl fun i _ => ?_
    rw [Finset.sum_comm (s := (Finset.univ : Finset (Fin m → Fin d)))]
    exact Finset.sum_congr rfl fun j _ => Finset.sum_congr rfl fun f _ => by ring
  rw [h2]
  exact Finset.sum_nonneg fun f _ => sq_nonneg _

theorem hasSum_exp (x : ℝ) : HasSum (fun m : Nat => x ^ m / m.factorial) (Real.exp x) := by
  have h : HasSum (fun m : Nat => x ^ m / (m.factorial : ℝ)) (NormedSpace.exp x) := NormedSpace.expSeries_div_hasSum_exp x
  rwa [← Real.exp_eq_exp_ℝ] at h

theorem quad_exp (X : Data n d) (c : Fin n → ℝ) {w : ℝ} (hw : 0 ≤ w) :
    0 ≤ ∑ i, ∑ j, c i * c j * Real.exp (w * ∑ k, X i k * X j k) := by
  have h : HasSum (fun m : Nat => ∑ i, ∑ j, c i * c j * ((w * ∑ k, X i k * X j k) ^ m / m.factorial))
      (∑ i, ∑ j, c i * c j * Real.exp (w * ∑ k, X i k * X j k)) := by
    refine hasSum_sum fun i _ => hasSum_sum fun j _ => ?_
    exact (hasSum_exp (w * ∑ k, X i k * X j k)).mul_left (c i * c j)
  refine h.nonneg fun m => ?_
  have : ∑ i, ∑ j, c i * c j * ((w * ∑ k, X i k * X j k) ^ m / m.factorial) =
      w ^ m / m.factorial * ∑ i, ∑ j, c i * c j * (∑ k, X i k * X j k) ^ m := by
    simp only [Finset.mul_sum (s := (Finset.univ : Finset (Fin n)))]
    exact Finset.sum_congr rfl fun i _ => Finset.sum_congr rfl fun j _ => by rw [mul_pow]; ring
  rw [this]
  have := quad_pow X c m
  positivity

/-- A Gaussian kernel matrix is positive semidefinite. -/
theorem gauss_psd (X : Data n d) {w : ℝ} (hw : 0 ≤ w) :
    (Matrix.of fun i j => Real.exp (-(w * sqDist X i j)) : Matrix (Fin n) (Fin n) ℝ).PosSemidef := by
  refine Matrix.PosSemidef.of_dotProduct_mulVec_nonneg ?_ fun c => ?_
  · ext i j
    simp [Matrix.conjTranspose_apply, sqDist_comm X i j]
  · have h := quad_exp X (fun i => c i * Real.exp (-(w * ∑ k, X i k * X i k))) (w := 2 * w) (by positivity)
    refine le_of_le_of_eq h ?_
    simp only [dotProduct, Matrix.mulVec, Finset.mul_sum (s := (Finset.univ : Finset (Fin n))), Matrix.of_apply, star_trivial]
    refine Finset.sum_congr rfl fun i _ => Finset.sum_congr rfl fun j _ => ?_
    have : -(w * sqDist X i j) = -(w * ∑ k, X i k * X i k) + -(w * ∑ k, X j k * X j k) + 2 * w * ∑ k, X i k * X j k := by
      rw [← gramDist_eq]
      unfold gramDist
      ring
    rw [this, Real.exp_add, Real.exp_add]
    ring

theorem hMat_transpose (n : Nat) : (hMat n).conjTranspose = hMat n := by
  ext i j
  simp [hMat, Matrix.conjTranspose_apply, Matrix.one_apply, eq_comm]

theorem hMat_eq (n : Nat) : hMat n = Spec.centring ℝ n := by
  ext i j
  simp [hMat, Spec.centring, Matrix.one_apply]

theorem center_psd {K : Matrix (Fin n) (Fin n) ℝ} (h : K.PosSemidef) : (center K).PosSemidef := by
  have := h.mul_mul_conjTranspose_same (hMat n)
  rwa [hMat_transpose] at this

theorem psd_symm {K : Matrix (Fin n) (Fin n) ℝ} (h : K.PosSemidef) (i j : Fin n) : K i j = K j i := by
  have := h.isHermitian.apply i j
  simpa using this.symm

theorem stat_nonneg {K L : Matrix (Fin n) (Fin n) ℝ} (hK : K.PosSemidef) (hL : L.PosSemidef) : 0 ≤ hsicStat K L := by
  have h := (hK.hadamard hL).dotProduct_mulVec_nonneg (fun _ => 1)
  refine le_of_le_of_eq h ?_
  simp [dotProduct, Matrix.mulVec, hsicStat, Matrix.hadamard_apply]

/-- The rows and columns in another order. -/
theorem hMat_perm (σ : Equiv.Perm (Fin n)) : (hMat n).submatrix σ σ = hMat n := by
  ext i j
  simp [hMat, Matrix.one_apply]

theorem center_perm (K : Matrix (Fin n) (Fin n) ℝ) (σ : Equiv.Perm (Fin n)) :
    center (K.submatrix σ σ) = (center K).submatrix σ σ := by
  unfold center
  conv_lhs => rw [← hMat_perm σ]
  rw [Matrix.submatrix_mul_equiv, Matrix.submatrix_mul_equiv]

theorem sum_perm (f : Fin n → Fin n → ℝ) (σ : Equiv.Perm (Fin n)) : ∑ i, ∑ j, f (σ i) (σ j) = ∑ i, ∑ j, f i j := by
  rw [← Equiv.sum_comp σ fun i => ∑ j, f i j]
  exact Finset.sum_congr rfl fun i _ => Equiv.sum_comp σ fun j => f (σ i) j

/-- Centred kernel matrices that are zero. -/
theorem center_zero (hn : n ≠ 0) {K : Matrix (Fin n) (Fin n) ℝ} (hs : ∀ i j, K i j = K j i) (hd : ∀ i, K i i = 1) :
    center K = 0 ↔ ∀ i j, K i j = 1 := by
  have hc : ∀ i j, center K i j = K i j - (∑ k, K k j) / n - (∑ k, K i k) / n + (∑ k, ∑ l, K k l) / (n : ℝ) ^ 2 := by
    intro i j
    rw [center, hMat_eq]
    exact center_entry K hn i j
  have hcol : ∀ j, ∑ k, K k j = ∑ k, K j k := fun j => Finset.sum_congr rfl fun k _ => hs k j
  constructor
  · intro h i j
    have h1 : ∀ i j, K i j - (∑ k, K k j) / n - (∑ k, K i k) / n + (∑ k, ∑ l, K k l) / (n : ℝ) ^ 2 = 0 := by
      intro i j
      rw [← hc, h]
      rfl
    have a := h1 i j
    have b := h1 i i
    have c := h1 j j
    rw [hd] at b c
    rw [hcol] at a b c
    linarith
  · intro h
    ext i j
    rw [hc]
    simp only [h, Finset.sum_const, Finset.card_univ, Fintype.card_fin, nsmul_eq_mul, mul_one, Matrix.zero_apply]
    have : (n : ℝ) ≠ 0 := by exact_mod_cast hn
    field_simp
    ring

end Cdmir.KTest
