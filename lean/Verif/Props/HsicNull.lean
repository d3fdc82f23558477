import Verif.Model.HsicTest
import Mathlib.Algebra.BigOperators.Fin
import Mathlib.Algebra.BigOperators.Ring.Finset
import Mathlib.Tactic.Ring
import Mathlib.Tactic.Linarith
import Mathlib.Tactic.NormNum

/-! C146 and C147, continued: the samples of the null distribution of the spectral test, and the rows of the blocks of the block test. -/

namespace Cdmir.HsicTest
open BigOperators

theorem sum_zipIdx (l : List ℝ) (f : ℝ × Nat → ℝ) : ((l.zipIdx).map f).sum = ∑ i : Fin l.length, f (l[i], i) := by
  rw [← List.sum_ofFn]
  congr 1
  apply List.ext_getElem
  · simp
  · intro i h1 h2
    simp

/-- C146: a sample is the sum over all pairs of eigenvalues of their product times the square of the draw, less one for the unbiased statistic. -/
theorem c146_sample (unbiased : Bool) (lx ly : List ℝ) (z : Nat → Nat → ℝ) :
    nullSample unbiased lx ly z = ∑ i : Fin lx.length, ∑ j : Fin ly.length, lx[i] * ly[j] * (if unbiased then z i j ^ 2 - 1 else z i j ^ 2) := by
  unfold nullSample
  rw [sum_zipIdx]
  refine Finset.sum_congr rfl fun i _ => ?_
  simp only
  rw [sum_zipIdx, Finset.mul_sum]
  refine Finset.sum_congr rfl fun j _ => ?_
  cases unbiased
  · simp; ring
  · simp; ring

theorem sum_get (l : List ℝ) : ∑ i : Fin l.length, l[i] = l.sum := by
  rw [← List.sum_ofFn]
  congr 1
  apply List.ext_getElem
  · simp
  · intro i h1 h2
    simp

/-- C146: the mean of the samples. If the squares of the draws have mean one at every place, the samples have mean zero for the unbiased statistic and the
product of the sums of the eigenvalues for the biased one. -/
theorem c146_mean (unbiased : Bool) (lx ly : List ℝ) (draws : List (Nat → Nat → ℝ)) (h : ∀ i j, (draws.map fun z => z i j ^ 2).sum = (draws.length : ℝ)) :
    (draws.map (nullSample unbiased lx ly)).sum = draws.length * (if unbiased then 0 else lx.sum * ly.sum) := by
  have key : ∀ (D : List (Nat → Nat → ℝ)), (D.map (nullSample unbiased lx ly)).sum = ∑ i : Fin lx.length, ∑ j : Fin ly.length,
      lx[i] * ly[j] * (if unbiased then (D.map fun z => z i j ^ 2).sum - (D.length : ℝ) else (D.map fun z => z i j ^ 2).sum) := by
    intro D
    induction D with
    | nil => simp
    | cons z D ih =>
      rw [List.map_cons, List.sum_cons, ih, c146_sample, ← Finset.sum_add_distrib]
      refine Finset.sum_congr rfl fun i _ => ?_
      rw [← Finset.sum_add_distrib]
      refine Finset.sum_congr rfl fun j _ => ?_
      rw [← mul_add]
      congr 1
      cases unbiased
      · simp
      · simp only [if_true, List.map_cons, List.sum_cons, List.length_cons]
        push_cast
        ring
  rw [key]
  simp only [h]
  cases unbiased
  · simp only [Bool.false_eq_true, if_false]
    rw [← sum_get lx, ← sum_get ly, Finset.sum_mul_sum, Finset.mul_sum]
    refine Finset.sum_congr rfl fun i _ => ?_
    rw [Finset.mul_sum]
    exact Finset.sum_congr rfl fun j _ => mul_comm _ _
  · simp

/-- Two draws, all 1 and all -1. -/
example : ([fun _ _ => 1, fun _ _ => -1].map (nullSample false [1, 2] [3])).sum = 2 * 9 := by
  rw [c146_mean false [1, 2] [3] [fun _ _ => 1, fun _ _ => -1] (by intro i j; norm_num)]
  norm_num

/-- C147: the blocks share out the rows: each of the first `n / b * b` rows is at one place of one block, and no other row is in a block. -/
theorem c147_blocks {b : Nat} (hb : 0 < b) (n : Nat) : (∀ {ρ : Type} (X : Nat → ρ) (k : Nat) (i : Fin b), block X b k i = X (block (fun t => t) b k i)) ∧
    (∀ t < n / b * b, ∃! p : Fin (n / b) × Fin b, block (fun t => t) b p.1 p.2 = t) ∧ ∀ k < n / b, ∀ i : Fin b, block (fun t => t) b k i < n / b * b := by
  refine ⟨fun X k i => rfl, fun t ht => ?_, fun k hk i => ?_⟩
  · refine ⟨(⟨t / b, Nat.div_lt_of_lt_mul (by rwa [mul_comm])⟩, ⟨t % b, Nat.mod_lt _ hb⟩), ?_, ?_⟩
    · simp only [block]
      rw [mul_comm]
      exact Nat.div_add_mod t b
    · rintro ⟨⟨k, hk⟩, ⟨i, hi⟩⟩ h
      simp only [block] at h
      subst h
      simp only [Prod.mk.injEq, Fin.mk.injEq]
      constructor
      · rw [add_comm, Nat.add_mul_div_right _ _ hb, Nat.div_eq_of_lt hi, zero_add]
      · rw [add_comm, Nat.add_mul_mod_self_right, Nat.mod_eq_of_lt hi]
  · simp only [block]
    have : (k + 1) * b ≤ n / b * b := Nat.mul_le_mul_right b hk
    have := i.isLt
    nlinarith

/-- Eleven rows in blocks of four: row 5 is at place 1 of block 1. -/
example : block (fun t => t) 4 1 (1 : Fin 4) = 5 := rfl

end Cdmir.HsicTest
