import Verif.Model.HsicTest
import Mathlib.LinearAlgebra.Matrix.Symmetric
import Mathlib.Algebra.Order.BigOperators.Ring.Finset
import Mathlib.Tactic.Ring
import Mathlib.Tactic.Linarith
import Mathlib.Tactic.FieldSimp
import Mathlib.Tactic.LinearCombination

/-! C144: the unbiased HSIC statistic. -/

namespace Cdmir.HsicTest

open Finset

noncomputable section

variable {m : Nat}

theorem den_ne (hm : 4 ≤ m) : (m : ℝ) ≠ 0 ∧ (m : ℝ) - 1 ≠ 0 ∧ (m : ℝ) - 2 ≠ 0 ∧ (m : ℝ) - 3 ≠ 0 := by
  have : (4 : ℝ) ≤ m := by exact_mod_cast hm
  refine ⟨?_, ?_, ?_, ?_⟩ <;> intro h <;> linarith

theorem zeroDiag_diag (K : Mat m) (i : Fin m) : zeroDiag K i i = 0 := by simp [zeroDiag]
theorem zeroDiag_off (K : Mat m) {i j : Fin m} (h : i ≠ j) : zeroDiag K i j = K i j := by simp [zeroDiag, h]
theorem zeroDiag_symm {K : Mat m} (h : K.IsSymm) : (zeroDiag K).IsSymm := by
  ext i j
  by_cases hij : i = j
  · subst hij; simp
  · rw [Matrix.transpose_apply, zeroDiag_off K hij, zeroDiag_off K (Ne.symm hij), h.apply]

/-- C144: the statistic is a number exactly for at least four rows. -/
theorem c144_finite (Kx Ky : Mat m) : ((uStat Kx Ky).1.isSome ↔ 4 ≤ m) := by
  constructor
  · intro h
    by_contra hm
    push Not at hm
    have : ((m : ℝ) * ((m : ℝ) - 3) * ((m : ℝ) - 1) * ((m : ℝ) - 2)) = 0 := by
      interval_cases m <;> norm_num
    unfold uStat at h
    simp [this] at h
  · intro hm
    obtain ⟨a, b, c, d⟩ := den_ne hm
    unfold uStat
    simp [a, b, c, d]

/-- The row sums without the diagonal. -/
def row (K : Mat m) (i : Fin m) : ℝ := ∑ j, zeroDiag K i j

theorem total_row (K : Mat m) : total (zeroDiag K) = ∑ i, row K i := rfl

theorem u_value (hm : 4 ≤ m) {Kx Ky : Mat m} (hx : Kx.IsSymm) (hy : Ky.IsSymm) : (uStat Kx Ky).1 =
    some ((∑ i, ∑ j, zeroDiag Kx i j * zeroDiag Ky i j) / (m * (m - 3)) + (∑ i, row Kx i) * (∑ i, row Ky i) / (m * (m - 3) * (m - 1) * (m - 2)) -
      2 * (∑ i, row Kx i * row Ky i) / (m * (m - 3) * (m - 2))) := by
  obtain ⟨a, b, c, d⟩ := den_ne hm
  have h1 : (zeroDiag Kx * zeroDiag Ky).trace = ∑ i, ∑ j, zeroDiag Kx i j * zeroDiag Ky i j := by
    rw [Matrix.trace]
    refine sum_congr rfl fun i _ => ?_
    rw [Matrix.diag_apply, Matrix.mul_apply]
    exact sum_congr rfl fun j _ => by rw [(zeroDiag_symm hy).apply]
  have h2 : total (zeroDiag Kx * zeroDiag Ky) = ∑ i, row Kx i * row Ky i := by
    unfold total
    simp only [Matrix.mul_apply]
    calc ∑ i, ∑ j, ∑ k, zeroDiag Kx i k * zeroDiag Ky k j = ∑ k, ∑ i, ∑ j, zeroDiag Kx i k * zeroDiag Ky k j := by
          rw [sum_comm]
          exact (sum_congr rfl fun i _ => sum_comm).trans sum_comm |>.trans (sum_congr rfl fun k _ => sum_comm)
      _ = ∑ k, row Kx k * row Ky k := by
          refine sum_congr rfl fun k _ => ?_
          unfold row
          rw [sum_mul_sum]
          exact sum_congr rfl fun i _ => sum_congr rfl fun j _ => by rw [(zeroDiag_symm hx).apply]
  unfold uStat
  simp only [h1, h2, total_row]
  rw [if_neg]
  simp [a, b, c, d]

theorem sum_two {f : Fin m → ℝ} {i j : Fin m} (h : i ≠ j) : (∑ q, if q ≠ i ∧ q ≠ j then f q else 0) = ∑ q, f q - f i - f j := by
  have : ∀ q, (if q ≠ i ∧ q ≠ j then f q else 0) = f q - (if q = i then f q else 0) - if q = j then f q else 0 := by
    intro q
    by_cases h1 : q = i
    · subst h1; simp [h]
    · by_cases h2 : q = j
      · subst h2; simp [h1]
      · simp [h1, h2]
  simp only [this, sum_sub_distrib, sum_ite_eq', mem_univ, if_true]

theorem sum_three {f : Fin m → ℝ} {i j q : Fin m} (h : i ≠ j) (h1 : q ≠ i) (h2 : q ≠ j) :
    (∑ r, if r ≠ i ∧ r ≠ j ∧ r ≠ q then f r else 0) = ∑ r, f r - f i - f j - f q := by
  have : ∀ r, (if r ≠ i ∧ r ≠ j ∧ r ≠ q then f r else 0) = (if r ≠ i ∧ r ≠ j then f r else 0) - if r = q then f r else 0 := by
    intro r
    by_cases h3 : r = q
    · subst h3; simp [h1, h2]
    · simp [h3]
  simp only [this, sum_sub_distrib, sum_ite_eq', mem_univ, if_true]
  rw [sum_two h]

/-- C144: the statistic is the mean, over all quadruples of different rows, of `Kx i j * (Ky i j + Ky q r - 2 Ky i q)`: the unbiased
estimate of HSIC, computed from matrix products. -/
theorem c144_tuples (hm : 4 ≤ m) {Kx Ky : Mat m} (hx : Kx.IsSymm) (hy : Ky.IsSymm) : (uStat Kx Ky).1 =
    some ((∑ i, ∑ j, ∑ q, ∑ r, if i ≠ j ∧ q ≠ i ∧ q ≠ j ∧ r ≠ i ∧ r ≠ j ∧ r ≠ q then Kx i j * (Ky i j + Ky q r - 2 * Ky i q) else 0) /
      (m * (m - 1) * (m - 2) * (m - 3))) := by
  obtain ⟨a, b, c, d⟩ := den_ne hm
  rw [u_value hm hx hy]
  congr 1
  set K := zeroDiag Kx with hK
  set L := zeroDiag Ky with hL
  have key : ∀ i j : Fin m, (∑ q, ∑ r, if i ≠ j ∧ q ≠ i ∧ q ≠ j ∧ r ≠ i ∧ r ≠ j ∧ r ≠ q then Kx i j * (Ky i j + Ky q r - 2 * Ky i q) else 0) =
      K i j * (((m : ℝ) - 1) * (m - 2) * L i j + (∑ t, row Ky t) - 2 * (m - 2) * row Ky i - 2 * row Ky j) := by
    intro i j
    by_cases hij : i = j
    · subst hij
      simp [hK, zeroDiag_diag]
    have hq : ∀ q, (∑ r, if i ≠ j ∧ q ≠ i ∧ q ≠ j ∧ r ≠ i ∧ r ≠ j ∧ r ≠ q then Kx i j * (Ky i j + Ky q r - 2 * Ky i q) else 0) =
        if q ≠ i ∧ q ≠ j then K i j * (((m : ℝ) - 3) * L i j + (row Ky q - L q i - L q j) - 2 * (m - 3) * L i q) else 0 := by
      intro q
      by_cases h : q ≠ i ∧ q ≠ j
      · rw [if_pos h]
        have e : ∀ r, (if i ≠ j ∧ q ≠ i ∧ q ≠ j ∧ r ≠ i ∧ r ≠ j ∧ r ≠ q then Kx i j * (Ky i j + Ky q r - 2 * Ky i q) else 0) =
            if r ≠ i ∧ r ≠ j ∧ r ≠ q then K i j * (L i j + L q r - 2 * L i q) else 0 := by
          intro r
          by_cases h' : r ≠ i ∧ r ≠ j ∧ r ≠ q
          · rw [if_pos h', if_pos ⟨hij, h.1, h.2, h'⟩, hK, hL, zeroDiag_off _ hij, zeroDiag_off _ hij, zeroDiag_off _ (Ne.symm h'.2.2), zeroDiag_off _ (Ne.symm h.1)]
          · rw [if_neg h', if_neg (fun hh => h' hh.2.2.2)]
        rw [sum_congr rfl fun r _ => e r, sum_three hij h.1 h.2]
        have : ∑ r, K i j * (L i j + L q r - 2 * L i q) = K i j * (m * L i j + row Ky q - 2 * m * L i q) := by
          rw [← mul_sum]
          congr 1
          rw [sum_sub_distrib, sum_add_distrib]
          simp only [sum_const, card_univ, Fintype.card_fin, nsmul_eq_mul]
          rw [show ∑ r, L q r = row Ky q from rfl]
          ring
        rw [this, show L q q = 0 from zeroDiag_diag _ _]
        ring
      · rw [if_neg h]
        exact sum_eq_zero fun r _ => if_neg fun hh => h ⟨hh.2.1, hh.2.2.1⟩
    rw [sum_congr rfl fun q _ => hq q, sum_two hij]
    have hs : ∀ q, L q i = L i q := fun q => (zeroDiag_symm hy).apply i q
    have hs' : ∀ q, L q j = L j q := fun q => (zeroDiag_symm hy).apply j q
    have : ∑ q, K i j * (((m : ℝ) - 3) * L i j + (row Ky q - L q i - L q j) - 2 * (m - 3) * L i q) =
        K i j * (m * ((m : ℝ) - 3) * L i j + ∑ t, row Ky t - row Ky i - row Ky j - 2 * (m - 3) * row Ky i) := by
      rw [← mul_sum]
      congr 1
      simp only [sum_sub_distrib, sum_add_distrib, ← mul_sum, sum_const, card_univ, Fintype.card_fin, nsmul_eq_mul]
      rw [sum_congr rfl fun q _ => hs q, sum_congr rfl fun q _ => hs' q]
      rw [show ∑ r, L i r = row Ky i from rfl, show ∑ r, L j r = row Ky j from rfl]
      ring
    rw [this, show L i i = 0 from zeroDiag_diag _ _, show L j j = 0 from zeroDiag_diag _ _, show L j i = L i j from hs j]
    ring
  rw [sum_congr rfl fun i _ => sum_congr rfl fun j _ => key i j]
  have t1 : ∑ i, ∑ j, K i j * row Ky i = ∑ i, row Kx i * row Ky i := by
    refine sum_congr rfl fun i _ => ?_
    rw [← sum_mul]
    rfl
  have t2 : ∑ i, ∑ j, K i j * row Ky j = ∑ i, row Kx i * row Ky i := by
    rw [sum_comm]
    refine sum_congr rfl fun i _ => ?_
    rw [← sum_mul]
    congr 1
    exact sum_congr rfl fun j _ => (zeroDiag_symm hx).apply i j
  have t3 : ∑ i, ∑ j, K i j = ∑ i, row Kx i := rfl
  have e : ∑ i, ∑ j, K i j * (((m : ℝ) - 1) * (m - 2) * L i j + (∑ t, row Ky t) - 2 * (m - 2) * row Ky i - 2 * row Ky j) =
      ((m : ℝ) - 1) * (m - 2) * (∑ i, ∑ j, K i j * L i j) + (∑ i, row Kx i) * (∑ t, row Ky t) - 2 * (m - 1) * ∑ i, row Kx i * row Ky i := by
    have e1 : ∀ i j, K i j * (((m : ℝ) - 1) * (m - 2) * L i j + (∑ t, row Ky t) - 2 * (m - 2) * row Ky i - 2 * row Ky j) =
        ((m : ℝ) - 1) * (m - 2) * (K i j * L i j) + K i j * (∑ t, row Ky t) - 2 * (m - 2) * (K i j * row Ky i) - 2 * (K i j * row Ky j) := fun i j => by ring
    simp only [e1, sum_sub_distrib, sum_add_distrib, ← mul_sum, ← sum_mul]
    rw [t2, show ∑ i, (∑ j, K i j) * row Ky i = ∑ i, row Kx i * row Ky i from rfl, t3]
    ring
  rw [e]
  field_simp

theorem sum_off {f : Fin m → ℝ} (i : Fin m) : (∑ j, if i = j then 0 else f j) = ∑ j, f j - f i := by
  have : ∀ j, (if i = j then 0 else f j) = f j - if i = j then f j else 0 := by
    intro j
    by_cases h : i = j <;> simp [h]
  simp only [this, sum_sub_distrib, sum_ite_eq, mem_univ, if_true]

/-- The doubly centred matrix with zero diagonal of Székely and Rizzo. -/
def doubly (K : Mat m) : Mat m := Matrix.of fun i j =>
  if i = j then 0 else K i j - (row K i + row K j) / ((m : ℝ) - 2) + (∑ t, row K t) / (((m : ℝ) - 1) * (m - 2))

theorem doubly_diag (K : Mat m) (i : Fin m) : doubly K i i = 0 := by simp [doubly]
theorem doubly_off (K : Mat m) {i j : Fin m} (h : i ≠ j) :
    doubly K i j = zeroDiag K i j - (row K i + row K j) / ((m : ℝ) - 2) + (∑ t, row K t) / (((m : ℝ) - 1) * (m - 2)) := by
  simp [doubly, h, zeroDiag]

theorem doubly_symm {K : Mat m} (h : K.IsSymm) : (doubly K).IsSymm := by
  ext i j
  by_cases hij : i = j
  · subst hij; simp
  · rw [Matrix.transpose_apply, doubly_off K hij, doubly_off K (Ne.symm hij), (zeroDiag_symm h).apply]
    ring

/-- Its rows sum to zero. -/
theorem doubly_row (hm : 4 ≤ m) (K : Mat m) (i : Fin m) : ∑ j, doubly K i j = 0 := by
  obtain ⟨a, b, c, d⟩ := den_ne hm
  have e : ∀ j, doubly K i j = if i = j then 0 else zeroDiag K i j - (row K i + row K j) / ((m : ℝ) - 2) + (∑ t, row K t) / (((m : ℝ) - 1) * (m - 2)) := by
    intro j
    by_cases h : i = j
    · subst h; simp [doubly_diag]
    · rw [if_neg h, doubly_off K h]
  rw [sum_congr rfl fun j _ => e j, sum_off]
  simp only [sum_sub_distrib, sum_add_distrib, ← sum_div, sum_const, card_univ, Fintype.card_fin, nsmul_eq_mul, zeroDiag_diag]
  rw [show ∑ j, zeroDiag K i j = row K i from rfl]
  field_simp
  ring

/-- C144: the statistic is an inner product of the doubly centred matrices. -/
theorem c144_inner (hm : 4 ≤ m) {Kx Ky : Mat m} (hx : Kx.IsSymm) (hy : Ky.IsSymm) :
    (uStat Kx Ky).1 = some ((∑ i, ∑ j, doubly Kx i j * doubly Ky i j) / (m * (m - 3))) := by
  obtain ⟨a, b, c, d⟩ := den_ne hm
  rw [u_value hm hx hy]
  congr 1
  have col : ∀ j, ∑ i, doubly Kx i j = 0 := fun j => by
    rw [← doubly_row hm Kx j]
    exact sum_congr rfl fun i _ => (doubly_symm hx).apply j i
  have e1 : ∀ i j, doubly Kx i j * doubly Ky i j = doubly Kx i j * zeroDiag Ky i j - doubly Kx i j * row Ky i / ((m : ℝ) - 2) - doubly Kx i j * row Ky j / ((m : ℝ) - 2) +
      doubly Kx i j * ((∑ t, row Ky t) / (((m : ℝ) - 1) * (m - 2))) := by
    intro i j
    by_cases h : i = j
    · subst h; simp [doubly_diag]
    · rw [doubly_off Ky h]
      ring
  have s1 : ∑ i, ∑ j, doubly Kx i j * doubly Ky i j = ∑ i, ∑ j, doubly Kx i j * zeroDiag Ky i j := by
    have z1 : ∑ i, ∑ j, doubly Kx i j * row Ky i / ((m : ℝ) - 2) = 0 := sum_eq_zero fun i _ => by
      rw [← sum_div, ← sum_mul, doubly_row hm, zero_mul, zero_div]
    have z2 : ∑ i, ∑ j, doubly Kx i j * row Ky j / ((m : ℝ) - 2) = 0 := by
      rw [sum_comm]
      exact sum_eq_zero fun j _ => by rw [← sum_div, ← sum_mul, col, zero_mul, zero_div]
    have z3 : ∑ i, ∑ j, doubly Kx i j * ((∑ t, row Ky t) / (((m : ℝ) - 1) * (m - 2))) = 0 := sum_eq_zero fun i _ => by
      rw [← sum_mul, doubly_row hm, zero_mul]
    simp only [e1, sum_add_distrib, sum_sub_distrib]
    rw [z1, z2, z3]
    ring
  have e2 : ∀ i j, doubly Kx i j * zeroDiag Ky i j = zeroDiag Kx i j * zeroDiag Ky i j - row Kx i * zeroDiag Ky i j / ((m : ℝ) - 2) -
      row Kx j * zeroDiag Ky i j / ((m : ℝ) - 2) + (∑ t, row Kx t) / (((m : ℝ) - 1) * (m - 2)) * zeroDiag Ky i j := by
    intro i j
    by_cases h : i = j
    · subst h; simp [zeroDiag_diag]
    · rw [doubly_off Kx h]
      ring
  have y1 : ∑ i, ∑ j, row Kx i * zeroDiag Ky i j / ((m : ℝ) - 2) = (∑ i, row Kx i * row Ky i) / (m - 2) := by
    rw [sum_div]
    refine sum_congr rfl fun i _ => ?_
    rw [← sum_div, ← mul_sum]
    rfl
  have y2 : ∑ i, ∑ j, row Kx j * zeroDiag Ky i j / ((m : ℝ) - 2) = (∑ i, row Kx i * row Ky i) / (m - 2) := by
    rw [sum_comm, sum_div]
    refine sum_congr rfl fun i _ => ?_
    rw [← sum_div, ← mul_sum]
    congr 2
    exact sum_congr rfl fun j _ => (zeroDiag_symm hy).apply i j
  have y3 : ∑ i, ∑ j, (∑ t, row Kx t) / (((m : ℝ) - 1) * (m - 2)) * zeroDiag Ky i j = (∑ t, row Kx t) / (((m : ℝ) - 1) * (m - 2)) * ∑ i, row Ky i := by
    rw [mul_sum]
    refine sum_congr rfl fun i _ => ?_
    rw [← mul_sum]
    rfl
  rw [s1]
  simp only [e2, sum_add_distrib, sum_sub_distrib]
  rw [y1, y2, y3]
  field_simp
  ring

/-- C144: of a matrix with itself the statistic is not negative, and two matrices satisfy the inequality of Cauchy and Schwarz. -/
theorem c144_cauchy (hm : 4 ≤ m) {Kx Ky : Mat m} (hx : Kx.IsSymm) (hy : Ky.IsSymm) : ∃ a b c : ℝ,
    (uStat Kx Ky).1 = some a ∧ (uStat Kx Kx).1 = some b ∧ (uStat Ky Ky).1 = some c ∧ 0 ≤ b ∧ 0 ≤ c ∧ a ^ 2 ≤ b * c := by
  have h4 : (4 : ℝ) ≤ m := by exact_mod_cast hm
  have hp : 0 < (m : ℝ) * (m - 3) := mul_pos (by linarith) (by linarith)
  refine ⟨_, _, _, c144_inner hm hx hy, c144_inner hm hx hx, c144_inner hm hy hy, ?_, ?_, ?_⟩
  · exact div_nonneg (sum_nonneg fun i _ => sum_nonneg fun j _ => mul_self_nonneg _) hp.le
  · exact div_nonneg (sum_nonneg fun i _ => sum_nonneg fun j _ => mul_self_nonneg _) hp.le
  · rw [div_pow, div_mul_div_comm, ← sq]
    gcongr
    have := sum_mul_sq_le_sq_mul_sq (univ : Finset (Fin m × Fin m)) (fun p => doubly Kx p.1 p.2) (fun p => doubly Ky p.1 p.2)
    simp only [← univ_product_univ, sum_product] at this
    simpa only [sq] using this

/-- C144: the unbiased distance correlation lies between -1 and 1 whenever it is a number. -/
theorem c144_dcor {Kx Ky : Mat m} (hx : Kx.IsSymm) (hy : Ky.IsSymm) {r : ℝ} (h : dCor true Kx Ky = some r) : |r| ≤ 1 := by
  have hz : ∀ K L : Mat m, (uStat (uStat K L).2.1 (uStat K L).2.1).1 = (uStat K K).1 ∧ (uStat (uStat (uStat K L).2.1 L).2.2 (uStat (uStat K L).2.1 L).2.2).1 = (uStat L L).1 := by
    intro K L
    have : ∀ M : Mat m, zeroDiag (zeroDiag M) = zeroDiag M := fun M => by
      ext i j
      by_cases h : i = j <;> simp [zeroDiag, h]
    constructor <;> simp only [uStat, this]
  by_cases hm : 4 ≤ m
  · obtain ⟨a, b, c, ha, hb, hc, b0, c0, hle⟩ := c144_cauchy hm hx hy
    unfold dCor at h
    simp only [if_true, hz, ha, hb, hc, Option.bind_eq_bind, Option.bind_some] at h
    unfold overRoot at h
    rw [if_neg (not_lt.2 (mul_nonneg b0 c0))] at h
    unfold quot at h
    split at h
    · cases h
    · rename_i h0
      cases h
      have hp : 0 < Real.sqrt (b * c) := lt_of_le_of_ne (Real.sqrt_nonneg _) (Ne.symm h0)
      rw [abs_div, abs_of_pos hp, div_le_one hp]
      exact Real.abs_le_sqrt hle
  · have := c144_finite Kx Ky
    have hn : (uStat Kx Ky).1 = none := by
      rw [← Option.not_isSome_iff_eq_none, this]
      exact hm
    unfold dCor at h
    simp [hn] at h

/-- C144: the diagonal and terms that depend on one row only do not matter; a factor is a factor. -/
theorem c144_affine (hm : 4 ≤ m) {Kx K' Ky : Mat m} (hx : Kx.IsSymm) (h' : K'.IsSymm) (hy : Ky.IsSymm) (a : ℝ) (v : Fin m → ℝ)
    (h : ∀ i j, i ≠ j → Kx i j = a * K' i j + v i + v j) : ∃ u, (uStat K' Ky).1 = some u ∧ (uStat Kx Ky).1 = some (a * u) := by
  obtain ⟨n0, n1, n2, n3⟩ := den_ne hm
  have hrow : ∀ i, row Kx i = a * row K' i + ((m : ℝ) - 2) * v i + ∑ t, v t := by
    intro i
    have e : ∀ j, zeroDiag Kx i j = a * zeroDiag K' i j + if i = j then 0 else v i + v j := by
      intro j
      by_cases hij : i = j
      · subst hij; simp [zeroDiag_diag]
      · rw [zeroDiag_off _ hij, zeroDiag_off _ hij, if_neg hij, h i j hij]
        ring
    unfold row
    rw [sum_congr rfl fun j _ => e j, sum_add_distrib, ← mul_sum, sum_off]
    simp only [sum_add_distrib, sum_const, card_univ, Fintype.card_fin, nsmul_eq_mul]
    ring
  have htot : ∑ i, row Kx i = a * ∑ i, row K' i + 2 * ((m : ℝ) - 1) * ∑ t, v t := by
    rw [sum_congr rfl fun i _ => hrow i]
    simp only [sum_add_distrib, ← mul_sum, sum_const, card_univ, Fintype.card_fin, nsmul_eq_mul]
    ring
  have hd : ∀ i j, doubly Kx i j = a * doubly K' i j := by
    intro i j
    by_cases hij : i = j
    · subst hij; simp [doubly_diag]
    · rw [doubly_off _ hij, doubly_off _ hij, zeroDiag_off _ hij, zeroDiag_off _ hij, h i j hij, htot, hrow i, hrow j]
      field_simp
      ring
  refine ⟨_, c144_inner hm h' hy, ?_⟩
  rw [c144_inner hm hx hy]
  simp only [hd, mul_assoc, ← mul_sum]
  congr 1
  ring

/-- C144: against a constant kernel, which is the kernel of a constant column, the statistic is zero. -/
theorem c144_constant (hm : 4 ≤ m) {Ky : Mat m} (hy : Ky.IsSymm) (c : ℝ) : (uStat (Matrix.of fun _ _ => c) Ky).1 = some 0 := by
  obtain ⟨u, -, h⟩ := c144_affine (K' := Ky) hm (Kx := Matrix.of fun _ _ => c) (by ext; rfl) hy hy 0 (fun _ => c / 2) (by intros; simp)
  rw [h, zero_mul]

/-- C144: renumbering the rows of both does not matter. -/
theorem c144_shuffle (Kx Ky : Mat m) (pp : Equiv.Perm (Fin m)) : (uStat (shuffle pp Kx) (shuffle pp Ky)).1 = (uStat Kx Ky).1 := by
  have hz : ∀ K : Mat m, zeroDiag (shuffle pp K) = shuffle pp (zeroDiag K) := fun K => by
    ext i j
    simp [zeroDiag, shuffle, Matrix.submatrix_apply]
  have ht : ∀ K : Mat m, total (shuffle pp K) = total K := fun K => by
    unfold total shuffle
    simp only [Matrix.submatrix_apply]
    rw [Equiv.sum_comp pp (fun i => ∑ j, K i (pp j))]
    exact sum_congr rfl fun i _ => Equiv.sum_comp pp (fun j => K i j)
  have hmul : shuffle pp (zeroDiag Kx) * shuffle pp (zeroDiag Ky) = shuffle pp (zeroDiag Kx * zeroDiag Ky) := by
    unfold shuffle
    rw [Matrix.submatrix_mul_equiv]
  have htr : (shuffle pp (zeroDiag Kx * zeroDiag Ky)).trace = (zeroDiag Kx * zeroDiag Ky).trace := by
    unfold shuffle Matrix.trace
    simp only [Matrix.diag_apply, Matrix.submatrix_apply]
    exact Equiv.sum_comp pp (fun i => (zeroDiag Kx * zeroDiag Ky) i i)
  unfold uStat
  simp only [hz, hmul, ht, htr]

/-- C144: the call overwrites the diagonals of the matrices it is given. Centred afterwards, as the spectral test does, a matrix with positive
entries has a negative trace, so negative eigenvalues; before the call the trace is that of the kernel less the mean row sum. -/
theorem c144_overwrites (hm : 0 < m) (Kx Ky : Mat m) :
    (centerKernelMatrix Kx).trace = Kx.trace - total Kx / m ∧
      (centerKernelMatrix (uStat Kx Ky).2.1).trace = - (∑ i, ∑ j, if i = j then 0 else Kx i j) / m ∧
      (2 ≤ m → (∀ i j, 0 < Kx i j) → (centerKernelMatrix (uStat Kx Ky).2.1).trace < 0) := by
  have hm' : (m : ℝ) ≠ 0 := by exact_mod_cast hm.ne'
  have key : ∀ K : Mat m, (centerKernelMatrix K).trace = K.trace - total K / m := by
    intro K
    unfold Matrix.trace
    simp only [Matrix.diag_apply]
    have : ∀ i, centerKernelMatrix K i i = K i i - 2 * colSums K i / m + vecSum (colSums K) / (m : ℝ) ^ 2 := fun i => by
      change K i i - (colSums K i + colSums K i) / m + vecSum (colSums K) / (m : ℝ) ^ 2 = _
      ring
    rw [sum_congr rfl fun i _ => this i, sum_add_distrib, sum_sub_distrib, ← sum_div, ← mul_sum]
    have ht : vecSum (colSums K) = total K := by
      unfold vecSum colSums total
      rw [sum_comm]
    rw [show ∑ i, colSums K i = total K from ht, ht]
    simp only [sum_const, card_univ, Fintype.card_fin, nsmul_eq_mul]
    field_simp
    ring
  have h2 : (centerKernelMatrix (uStat Kx Ky).2.1).trace = - (∑ i, ∑ j, if i = j then 0 else Kx i j) / m := by
    rw [show (uStat Kx Ky).2.1 = zeroDiag Kx from rfl, key]
    have : (zeroDiag Kx).trace = 0 := by
      unfold Matrix.trace
      exact sum_eq_zero fun i _ => zeroDiag_diag _ _
    rw [this, neg_div, zero_sub]
    rfl
  refine ⟨key Kx, h2, fun h hp => ?_⟩
  rw [h2, neg_div, neg_lt_zero]
  apply div_pos _ (by exact_mod_cast hm)
  have h0 : ∀ i j : Fin m, 0 ≤ if i = j then (0 : ℝ) else Kx i j := fun i j => by
    split
    · exact le_rfl
    · exact (hp i j).le
  refine sum_pos' (fun i _ => sum_nonneg fun j _ => h0 i j) ⟨⟨0, hm⟩, mem_univ _, sum_pos' (fun j _ => h0 _ j) ⟨⟨1, h⟩, mem_univ _, ?_⟩⟩
  rw [if_neg (by simp)]
  exact hp _ _

/-! ### Concrete cases -/

/-- Four rows. -/
def exK : Mat 4 := !![1, 2, 0, 0; 2, 1, 3, 0; 0, 3, 1, 1; 0, 0, 1, 1]

theorem exK_symm : exK.IsSymm := by
  ext i j
  fin_cases i <;> fin_cases j <;> rfl

example := c144_tuples (le_refl 4) exK_symm exK_symm
example := c144_cauchy (le_refl 4) exK_symm exK_symm
example : doubly exK 0 1 = 1 / 2 := by
  rw [doubly_off _ (by decide)]
  simp only [row, zeroDiag, Fin.sum_univ_four, exK]
  norm_num [Matrix.of_apply, Matrix.cons_val', Matrix.cons_val_zero, Matrix.cons_val_one, Matrix.cons_val_two, Matrix.cons_val_three]
  repeat rw [if_neg (by decide)]
  norm_num
example := c144_constant (le_refl 4) exK_symm 1
example := c144_shuffle exK exK (Equiv.swap 0 1)
example := (c144_overwrites (m := 2) (by norm_num) (Matrix.of fun _ _ => 1) (Matrix.of fun _ _ => 1)).2.2 le_rfl (by simp)

end

end Cdmir.HsicTest
