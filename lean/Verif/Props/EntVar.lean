import Verif.Props.EntLoss
import Mathlib.Algebra.BigOperators.Field

/-! C136: the variance that the entropy losses use. -/

namespace Cdmir.EntLoss
open BigOperators

variable {ι : Type} [Fintype ι]

/-- C136: the variance is the mean of the half squared differences of all pairs of different entries. -/
theorem c136_pairs (r : ι → ℝ) (h : 2 ≤ Fintype.card ι) :
    var r = (∑ i, ∑ j, (r i - r j) ^ 2 / 2) / ((Fintype.card ι : ℝ) * (Fintype.card ι - 1)) := by
  have h2 : (2 : ℝ) ≤ Fintype.card ι := by exact_mod_cast h
  have hn : (Fintype.card ι : ℝ) ≠ 0 := by linarith
  have hn1 : (Fintype.card ι : ℝ) - 1 ≠ 0 := by linarith
  have e : ∑ i, ∑ j, (r i - r j) ^ 2 / 2 = (Fintype.card ι : ℝ) * ∑ i, (r i - mean r) ^ 2 := by
    have hm : ∑ i, r i = Fintype.card ι * mean r := by unfold mean; field_simp
    have e1 : ∀ i j, (r i - r j) ^ 2 / 2 = (r i - mean r) ^ 2 / 2 + (r j - mean r) ^ 2 / 2 - (r i - mean r) * (r j - mean r) := by
      intro i j; ring
    have e2 : ∑ j, (r j - mean r) = 0 := by
      rw [Finset.sum_sub_distrib, hm, Finset.sum_const, Finset.card_univ, nsmul_eq_mul, sub_self]
    simp only [e1, Finset.sum_sub_distrib, Finset.sum_add_distrib, Finset.sum_const, Finset.card_univ, nsmul_eq_mul, ← Finset.mul_sum, e2,
      mul_zero, sub_zero, ← Finset.sum_div]
    ring
  unfold var
  rw [e]
  field_simp

/-- Two entries at distance 2. -/
example : var (fun i : Fin 2 => 2 * (i : ℝ)) = 2 := by
  rw [c136_pairs _ (by simp)]
  norm_num [Fin.sum_univ_two]

end Cdmir.EntLoss
