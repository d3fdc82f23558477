import Verif.Model.Notears
import Verif.Spec.DSep
import Mathlib.Algebra.Order.BigOperators.Ring.Finset
import Mathlib.Algebra.Order.Field.Basic
import Mathlib.Data.Nat.Choose.Sum
import Mathlib.Data.Fintype.Pigeonhole
import Mathlib.Tactic.Positivity
import Mathlib.Tactic.Linarith
import Mathlib.Tactic.Ring
import Mathlib.Tactic.FieldSimp

/-! Powers of non-negative matrices and walks: proof devices for the acyclicity constraint. -/

namespace Cdmir.Notears
open BigOperators Spec

section
variable {K : Type} [Field K] {d : Nat}

theorem stepMat_eq (A : Matrix (Fin d) (Fin d) K) : stepMat A = 1 + (d : K)⁻¹ • A := by
  ext i j
  simp [stepMat, Matrix.one_apply, div_eq_inv_mul]

/-- The entrywise sum is a trace. -/
theorem total_had (E M : Matrix (Fin d) (Fin d) K) : total (had E.transpose M) = (E * M).trace := by
  unfold total had Matrix.trace
  rw [Finset.sum_comm]
  simp [Matrix.mul_apply, Matrix.transpose_apply]

theorem hOf_trace (hd : d ≠ 0) (A : Matrix (Fin d) (Fin d) K) : hOf A = (stepMat A ^ d).trace - d := by
  unfold hOf
  simp only
  rw [total_had, ← pow_succ, Nat.sub_add_cancel (Nat.pos_of_ne_zero hd)]

theorem hW_fst (W : Matrix (Fin d) (Fin d) K) : (hW W).1 = hOf (had W W) := rfl

/-- The constraint as a sum over lengths of closed walks. -/
theorem hOf_sum (hd : d ≠ 0) (A : Matrix (Fin d) (Fin d) K) :
    hOf A = ∑ k ∈ Finset.range d, (d.choose (k + 1) : K) * ((((d : K)⁻¹ • A) ^ (k + 1)).trace) := by
  rw [hOf_trace hd, stepMat_eq, add_comm (1 : Matrix (Fin d) (Fin d) K), (Commute.one_right _).add_pow, Matrix.trace_sum,
    Finset.sum_range_succ']
  simp only [one_pow, mul_one, pow_zero, Nat.choose_zero_right, Nat.cast_one, Matrix.trace_one, Fintype.card_fin, add_sub_cancel_right]
  refine Finset.sum_congr rfl fun k _ => ?_
  rw [← nsmul_eq_mul', Matrix.trace_smul, nsmul_eq_mul]

end

section
variable {K : Type} [Field K] [LinearOrder K] [IsStrictOrderedRing K] {d : Nat}

theorem pow_nonneg {A : Matrix (Fin d) (Fin d) K} (hA : ∀ i j, 0 ≤ A i j) (k : Nat) (i j : Fin d) : 0 ≤ (A ^ k) i j := by
  induction k generalizing i j with
  | zero => rw [pow_zero, Matrix.one_apply]; split <;> norm_num
  | succ k ih =>
    rw [pow_succ, Matrix.mul_apply]
    exact Finset.sum_nonneg fun l _ => mul_nonneg (ih i l) (hA l j)

theorem trace_nonneg {A : Matrix (Fin d) (Fin d) K} (hA : ∀ i j, 0 ≤ A i j) (k : Nat) : 0 ≤ (A ^ k).trace :=
  Finset.sum_nonneg fun i _ => pow_nonneg hA k i i

omit [LinearOrder K] [IsStrictOrderedRing K] in
/-- An entry of a power that is not zero comes from a walk. -/
theorem walk_of_pow {A : Matrix (Fin d) (Fin d) K} {k : Nat} {i j : Fin d} (h : (A ^ (k + 1)) i j ≠ 0) :
    Relation.TransGen (fun a b => A a b ≠ 0) i j := by
  induction k generalizing j with
  | zero => rw [zero_add, pow_one] at h; exact .single h
  | succ k ih =>
    rw [pow_succ, Matrix.mul_apply] at h
    obtain ⟨l, _, hl⟩ := Finset.exists_ne_zero_of_sum_ne_zero h
    exact .tail (ih (left_ne_zero_of_mul hl)) (right_ne_zero_of_mul hl)

/-- A walk bounds the entry of the power from below by the product of the weights. -/
theorem pow_of_walk {A : Matrix (Fin d) (Fin d) K} (hA : ∀ i j, 0 ≤ A i j) {c : K} (hc : 0 ≤ c) {v : Nat → Fin d} {k : Nat}
    (h : ∀ t < k, c ≤ A (v t) (v (t + 1))) : c ^ k ≤ (A ^ k) (v 0) (v k) := by
  induction k with
  | zero => simp
  | succ k ih =>
    rw [pow_succ, pow_succ A, Matrix.mul_apply]
    calc c ^ k * c ≤ (A ^ k) (v 0) (v k) * A (v k) (v (k + 1)) :=
          mul_le_mul (ih fun t ht => h t (by omega)) (h k (by omega)) hc (pow_nonneg hA _ _ _)
      _ ≤ _ := Finset.single_le_sum (f := fun l => (A ^ k) (v 0) l * A l (v (k + 1)))
          (fun l _ => mul_nonneg (pow_nonneg hA _ _ _) (hA _ _)) (Finset.mem_univ (v k))

theorem walk_of_trans {α : Type} {R : α → α → Prop} {a b : α} (h : Relation.TransGen R a b) :
    ∃ (k : Nat) (v : Nat → α), v 0 = a ∧ v (k + 1) = b ∧ ∀ t < k + 1, R (v t) (v (t + 1)) := by
  induction h with
  | @single b h => exact ⟨0, fun t => if t = 0 then a else b, by simp, by simp, fun t ht => by
      obtain rfl : t = 0 := by omega
      simpa using h⟩
  | @tail b c _ h ih =>
    obtain ⟨k, v, h0, h1, hv⟩ := ih
    refine ⟨k + 1, fun t => if t = k + 2 then c else v t, by simpa using h0, by simp, fun t ht => ?_⟩
    rcases Nat.lt_or_ge t (k + 1) with q | q
    · have e1 : t ≠ k + 2 := by omega
      have e2 : t + 1 ≠ k + 2 := by omega
      simp only [e1, e2, if_false]
      exact hv t q
    · obtain rfl : t = k + 1 := by omega
      simp only [if_true]
      rw [if_neg (by omega), h1]
      exact h

/-- A closed walk contains one of length at most `d`. -/
theorem short_cycle {R : Fin d → Fin d → Prop} {a : Fin d} (h : Relation.TransGen R a a) :
    ∃ (k : Nat) (v : Nat → Fin d), k + 1 ≤ d ∧ v 0 = v (k + 1) ∧ ∀ t < k + 1, R (v t) (v (t + 1)) := by
  obtain ⟨k, v, h0, h1, hv⟩ := walk_of_trans h
  rcases Nat.lt_or_ge d (k + 1) with q | q
  · obtain ⟨x, y, hne, hxy⟩ := Fintype.exists_ne_map_eq_of_card_lt (fun t : Fin (d + 1) => v t) (by simp)
    have key : ∀ x y : Fin (d + 1), x < y → v x = v y →
        ∃ (k : Nat) (v : Nat → Fin d), k + 1 ≤ d ∧ v 0 = v (k + 1) ∧ ∀ t < k + 1, R (v t) (v (t + 1)) := by
      intro x y hlt e
      have hx := x.2
      have hy := y.2
      have hlt' : x.1 < y.1 := hlt
      refine ⟨y.1 - x.1 - 1, fun t => v (x.1 + t), by omega, ?_, fun t ht => ?_⟩
      · have : x.1 + (y.1 - x.1 - 1 + 1) = y.1 := by omega
        simp only [this, Nat.add_zero]
        exact e
      · exact hv (x.1 + t) (by omega)
    rcases lt_or_gt_of_ne hne with q' | q'
    · exact key x y q' hxy
    · exact key y x q' hxy.symm
  · exact ⟨k, v, q, by rw [h0, h1], hv⟩

theorem scaled_nonneg {A : Matrix (Fin d) (Fin d) K} (hA : ∀ i j, 0 ≤ A i j) (i j : Fin d) : 0 ≤ ((d : K)⁻¹ • A) i j := by
  rw [Matrix.smul_apply, smul_eq_mul]
  exact mul_nonneg (by positivity) (hA i j)

theorem hOf_nonneg (hd : d ≠ 0) {A : Matrix (Fin d) (Fin d) K} (hA : ∀ i j, 0 ≤ A i j) : 0 ≤ hOf A := by
  rw [hOf_sum hd]
  exact Finset.sum_nonneg fun k _ => mul_nonneg (by positivity) (trace_nonneg (scaled_nonneg hA) _)

/-- A cycle of length `k + 1` all of whose weights are at least `c` bounds the constraint from below. -/
theorem hOf_ge (hd : d ≠ 0) {A : Matrix (Fin d) (Fin d) K} (hA : ∀ i j, 0 ≤ A i j) {c : K} (hc : 0 ≤ c) {k : Nat}
    {v : Nat → Fin d} (hk : k + 1 ≤ d) (e : v 0 = v (k + 1)) (hv : ∀ t < k + 1, c ≤ A (v t) (v (t + 1))) :
    (d.choose (k + 1) : K) * (c / d) ^ (k + 1) ≤ hOf A := by
  rw [hOf_sum hd]
  refine le_trans ?_ (Finset.single_le_sum (f := fun k => (d.choose (k + 1) : K) * ((((d : K)⁻¹ • A) ^ (k + 1)).trace))
    (fun k _ => mul_nonneg (by positivity) (trace_nonneg (scaled_nonneg hA) _)) (Finset.mem_range.2 hk))
  refine mul_le_mul_of_nonneg_left ?_ (by positivity)
  refine le_trans ?_ (Finset.single_le_sum (f := fun i => (((d : K)⁻¹ • A) ^ (k + 1)) i i)
    (fun i _ => pow_nonneg (scaled_nonneg hA) _ i i) (Finset.mem_univ (v 0)))
  have := pow_of_walk (scaled_nonneg hA) (c := c / d) (by positivity) (v := v) (k := k + 1) (fun t ht => by
    rw [Matrix.smul_apply, smul_eq_mul, div_eq_inv_mul]
    exact mul_le_mul_of_nonneg_left (hv t ht) (by positivity))
  rw [← e] at this
  exact this

theorem hOf_zero_iff (hd : d ≠ 0) {A : Matrix (Fin d) (Fin d) K} (hA : ∀ i j, 0 ≤ A i j) :
    hOf A = 0 ↔ Acyclic (fun i j => A i j ≠ 0) := by
  have hdK : (0 : K) < d := by exact_mod_cast Nat.pos_of_ne_zero hd
  constructor
  · intro h a ha
    obtain ⟨k, v, hk, e, hv⟩ := short_cycle ha
    -- the least weight on the cycle
    have : ∃ c : K, 0 < c ∧ ∀ t < k + 1, c ≤ A (v t) (v (t + 1)) := by
      have hne : (Finset.range (k + 1)).Nonempty := ⟨0, by simp⟩
      obtain ⟨t, ht, hm⟩ := Finset.exists_min_image (Finset.range (k + 1)) (fun t => A (v t) (v (t + 1))) hne
      exact ⟨A (v t) (v (t + 1)), lt_of_le_of_ne (hA _ _) (hv t (Finset.mem_range.1 ht)).symm,
        fun s hs => hm s (Finset.mem_range.2 hs)⟩
    obtain ⟨c, hc, hcv⟩ := this
    have h1 := hOf_ge hd hA hc.le hk e hcv
    have h2 : 0 < (d.choose (k + 1) : K) * (c / d) ^ (k + 1) := by
      have : 0 < d.choose (k + 1) := Nat.choose_pos hk
      positivity
    linarith
  · intro h
    rw [hOf_sum hd]
    refine Finset.sum_eq_zero fun k _ => ?_
    have : (((d : K)⁻¹ • A) ^ (k + 1)).trace = 0 := by
      refine Finset.sum_eq_zero fun i _ => ?_
      by_contra q
      have w := walk_of_pow q
      refine h i (Relation.TransGen.mono (fun a b k => ?_) _ _ w)
      rw [Matrix.smul_apply, smul_eq_mul] at k
      exact right_ne_zero_of_mul k
    rw [this, mul_zero]

end
end Cdmir.Notears
