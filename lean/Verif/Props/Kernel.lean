import Verif.Model.Kernel
import Mathlib.Tactic.FieldSimp
import Mathlib.Tactic.Ring
import Mathlib.Tactic.LinearCombination
import Mathlib.Algebra.CharZero.Defs
import Mathlib.Data.Matrix.Basic

/-! Property C38: centring a kernel matrix. -/

namespace Cdmir
open BigOperators

namespace Spec
/-- The centring matrix `I - 11'/n`. -/
def centring (F : Type) [Field F] (n : Nat) : Matrix (Fin n) (Fin n) F := fun i j => (if i = j then 1 else 0) - 1 / n
end Spec

section
variable {F : Type} [Field F] [CharZero F] {n : Nat} (K : Matrix (Fin n) (Fin n) F)

theorem center_entry (hn : n ≠ 0) (i j : Fin n) :
    (Spec.centring F n * K * Spec.centring F n) i j =
      K i j - (∑ k, K k j) / n - (∑ k, K i k) / n + (∑ k, ∑ l, K k l) / (n : F) ^ 2 := by
  have h1 : ∀ j, (Spec.centring F n * K) i j = K i j - (∑ k, K k j) / n := by
    intro j
    simp only [Matrix.mul_apply, Spec.centring, sub_mul, Finset.sum_sub_distrib, ite_mul, one_mul, zero_mul,
      Finset.sum_ite_eq, Finset.mem_univ, if_true]
    rw [← Finset.mul_sum]; ring
  rw [Matrix.mul_apply]
  simp only [h1, Spec.centring, mul_sub, mul_ite, mul_one, mul_zero, Finset.sum_sub_distrib, Finset.sum_ite_eq',
    Finset.mem_univ, if_true]
  rw [← Finset.sum_mul, Finset.sum_sub_distrib, ← Finset.sum_div]
  rw [Finset.sum_comm (f := fun k l => K k l)]
  have : (n : F) ≠ 0 := by exact_mod_cast hn
  field_simp
  ring

/-- **C38, what holds of every square matrix.** The column sums of the result are zero, and the result is `H K H` exactly
for the matrices whose row sums are their column sums; in that case also the row sums are zero. -/
theorem c38_center_exact (hn : n ≠ 0) :
    (∀ j, ∑ i, centerKernelMatrix K i j = 0) ∧
    (centerKernelMatrix K = Spec.centring F n * K * Spec.centring F n ↔ ∀ i, ∑ j, K i j = ∑ j, K j i) ∧
    ∀ i, ∑ j, centerKernelMatrix K i j = ∑ j, K i j - ∑ j, K j i := by
  have hn' : (n : F) ≠ 0 := by exact_mod_cast hn
  have hc : (∑ k, ∑ l, K k l) = ∑ l, ∑ k, K k l := Finset.sum_comm
  have hall : vecSum (colSums K) = ∑ k, ∑ l, K k l := hc.symm
  refine ⟨fun j => ?_, ⟨fun h i => ?_, fun h => ?_⟩, fun i => ?_⟩
  · simp only [centerKernelMatrix, Finset.sum_add_distrib, Finset.sum_sub_distrib, ← Finset.sum_div, Finset.sum_const,
      Finset.card_univ, Fintype.card_fin, nsmul_eq_mul]
    rw [hall, hc]
    simp only [colSums]
    field_simp
    ring
  · have h1 := congrFun (congrFun h i) i
    rw [center_entry K hn] at h1
    simp only [centerKernelMatrix, hall, colSums] at h1
    have h2 : (∑ k, K i k) / (n : F) = (∑ k, K k i) / n := by
      linear_combination h1
    exact (div_left_inj' hn').1 h2
  · funext i j
    rw [center_entry K hn]
    simp only [centerKernelMatrix, hall, colSums, h i]
    ring
  · simp only [centerKernelMatrix, Finset.sum_add_distrib, Finset.sum_sub_distrib, ← Finset.sum_div, Finset.sum_const,
      Finset.card_univ, Fintype.card_fin, nsmul_eq_mul]
    rw [hall, hc]
    simp only [colSums]
    field_simp
    ring

/-- **C38, what holds.** The full claim - for every square matrix the result is `H K H`, its row and column sums are zero and
centring again changes nothing - is false (`c38_false`: the code takes column sums for row sums). It holds for symmetric
matrices. -/
theorem c38_center_partial (hn : n ≠ 0) (hs : ∀ i j, K i j = K j i) :
    centerKernelMatrix K = Spec.centring F n * K * Spec.centring F n ∧
    (∀ j, ∑ i, centerKernelMatrix K i j = 0) ∧ (∀ i, ∑ j, centerKernelMatrix K i j = 0) ∧
    (∀ i j, centerKernelMatrix K i j = centerKernelMatrix K j i) ∧
    centerKernelMatrix (centerKernelMatrix K) = centerKernelMatrix K := by
  obtain ⟨h1, h2, h3⟩ := c38_center_exact K hn
  have hrc : ∀ i, ∑ j, K i j = ∑ j, K j i := fun i => Finset.sum_congr rfl (fun j _ => hs i j)
  refine ⟨h2.2 hrc, h1, fun i => by rw [h3, hrc, sub_self], fun i j => ?_, ?_⟩
  · simp only [centerKernelMatrix, hs i j]; ring
  · funext i j
    have hz : colSums (centerKernelMatrix K) = fun _ => 0 := by funext j; exact h1 j
    rw [show centerKernelMatrix (centerKernelMatrix K) i j = centerKernelMatrix K i j -
      (colSums (centerKernelMatrix K) j + colSums (centerKernelMatrix K) i) / n +
      vecSum (colSums (centerKernelMatrix K)) / (n : F) ^ 2 from rfl, hz]
    simp [vecSum]

end

section examples

/-- A symmetric matrix. -/
def exK : Matrix (Fin 2) (Fin 2) ℚ := fun i j => if i = j then 2 else 1

example := c38_center_partial exK (by decide) (by intro i j; simp only [exK, eq_comm])
example : centerKernelMatrix exK 0 0 = 1 / 2 ∧ centerKernelMatrix exK 0 1 = -1 / 2 := by decide +kernel

/-- A matrix that is not symmetric. -/
def exKBad : Matrix (Fin 2) (Fin 2) ℚ := fun i j => if i = 0 ∧ j = 1 then 1 else 0

example := c38_center_exact exKBad (by decide)

/-- **C38 is false**: the row sums need not be zero, and the result need not be `H K H`. -/
theorem c38_false : ∃ K : Matrix (Fin 2) (Fin 2) ℚ,
    centerKernelMatrix K ≠ Spec.centring ℚ 2 * K * Spec.centring ℚ 2 ∧ ∑ j, centerKernelMatrix K 0 j ≠ 0 := by
  obtain ⟨_, h2, h3⟩ := c38_center_exact exKBad (by decide)
  refine ⟨exKBad, fun h => ?_, ?_⟩
  · have := h2.1 h 0
    revert this; decide +kernel
  · rw [h3]; decide +kernel

end examples
end Cdmir
