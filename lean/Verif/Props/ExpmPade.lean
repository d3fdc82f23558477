import Verif.Props.Expm
import Mathlib.LinearAlgebra.Matrix.Charpoly.Coeff
import Mathlib.RingTheory.Nilpotent.Basic

/-! C123 and C124: the Padé approximants of expm64.py and expm32.py. -/

namespace Cdmir.Expm
open Polynomial Finset

/-- The coefficients of the numerator of the Padé approximant of degree `m`, scaled so that the last is one. -/
noncomputable def pc (m j : ℕ) : ℝ := ((2 * m - j).factorial : ℝ) / ((m - j).factorial * j.factorial)

section sums
variable {R : Type*} [Ring R] [Algebra ℝ R]

section hom
variable {S : Type*} [Ring S] [Algebra ℝ S] (φ : R →ₐ[ℝ] S) (a : R)

theorem pade3_hom : (φ (pade3 a).1, φ (pade3 a).2) = pade3 (φ a) := by simp only [pade3, map_add, map_smul, map_mul, map_one]
theorem pade5_hom : (φ (pade5 a).1, φ (pade5 a).2) = pade5 (φ a) := by simp only [pade5, map_add, map_smul, map_mul, map_one]
theorem pade7_hom : (φ (pade7 a).1, φ (pade7 a).2) = pade7 (φ a) := by simp only [pade7, map_add, map_smul, map_mul, map_one]
theorem pade9_hom : (φ (pade9 a).1, φ (pade9 a).2) = pade9 (φ a) := by simp only [pade9, map_add, map_smul, map_mul, map_one]
theorem pade13_hom (s : ℕ) : (φ (pade13 s a).1, φ (pade13 s a).2) = pade13 s (φ a) := by
  simp only [pade13, map_add, map_smul, map_mul, map_one]
theorem pade7s_hom (s : ℕ) : (φ (pade7s s a).1, φ (pade7s s a).2) = pade7s s (φ a) := by
  simp only [pade7s, map_add, map_smul, map_mul, map_one]
end hom

/-- From the identity for real numbers to the one in any algebra. -/
theorem pade_of_real {FP : ℝ[X] × ℝ[X]} {FR : R × R} {Fr : ℝ → ℝ × ℝ} {m : ℕ} {a : R} (h1 : (aeval a FP.1, aeval a FP.2) = FR)
    (h2 : ∀ x : ℝ, (aeval x FP.1, aeval x FP.2) = Fr x) (hp : ∀ x, (Fr x).1 + (Fr x).2 = ∑ k ∈ range (m + 1), pc m k * x ^ k)
    (hq : ∀ x, -(Fr x).1 + (Fr x).2 = ∑ k ∈ range (m + 1), (-1) ^ k * pc m k * x ^ k) :
    FR.1 + FR.2 = ∑ k ∈ range (m + 1), pc m k • a ^ k ∧ -FR.1 + FR.2 = ∑ k ∈ range (m + 1), ((-1) ^ k * pc m k) • a ^ k := by
  subst h1
  constructor
  · exact sum_of_real (FP := FP.1 + FP.2) (Fr := fun x => (Fr x).1 + (Fr x).2) (by simp) (fun x => by rw [← h2]; simp) hp
  · exact sum_of_real (FP := -FP.1 + FP.2) (Fr := fun x => -(Fr x).1 + (Fr x).2) (by simp) (fun x => by rw [← h2]; simp) hq

theorem pade3_sum (a : R) : (pade3 a).1 + (pade3 a).2 = ∑ k ∈ range 4, pc 3 k • a ^ k ∧
    -(pade3 a).1 + (pade3 a).2 = ∑ k ∈ range 4, ((-1) ^ k * pc 3 k) • a ^ k := by
  refine pade_of_real (FP := pade3 X) (Fr := pade3) (by rw [pade3_hom, aeval_X]) (fun x => by rw [pade3_hom, aeval_X]) ?_ ?_ <;>
  · intro x
    norm_num [pade3, sum_range_succ, pc, Nat.factorial]
    ring

theorem pade5_sum (a : R) : (pade5 a).1 + (pade5 a).2 = ∑ k ∈ range 6, pc 5 k • a ^ k ∧
    -(pade5 a).1 + (pade5 a).2 = ∑ k ∈ range 6, ((-1) ^ k * pc 5 k) • a ^ k := by
  refine pade_of_real (FP := pade5 X) (Fr := pade5) (by rw [pade5_hom, aeval_X]) (fun x => by rw [pade5_hom, aeval_X]) ?_ ?_ <;>
  · intro x
    norm_num [pade5, sum_range_succ, pc, Nat.factorial]
    ring

theorem pade7_sum (a : R) : (pade7 a).1 + (pade7 a).2 = ∑ k ∈ range 8, pc 7 k • a ^ k ∧
    -(pade7 a).1 + (pade7 a).2 = ∑ k ∈ range 8, ((-1) ^ k * pc 7 k) • a ^ k := by
  refine pade_of_real (FP := pade7 X) (Fr := pade7) (by rw [pade7_hom, aeval_X]) (fun x => by rw [pade7_hom, aeval_X]) ?_ ?_ <;>
  · intro x
    norm_num [pade7, sum_range_succ, pc, Nat.factorial]
    ring

theorem pade9_sum (a : R) : (pade9 a).1 + (pade9 a).2 = ∑ k ∈ range 10, pc 9 k • a ^ k ∧
    -(pade9 a).1 + (pade9 a).2 = ∑ k ∈ range 10, ((-1) ^ k * pc 9 k) • a ^ k := by
  refine pade_of_real (FP := pade9 X) (Fr := pade9) (by rw [pade9_hom, aeval_X]) (fun x => by rw [pade9_hom, aeval_X]) ?_ ?_ <;>
  · intro x
    norm_num [pade9, sum_range_succ, pc, Nat.factorial]
    ring

theorem pade13_sum (a : R) : (pade13 0 a).1 + (pade13 0 a).2 = ∑ k ∈ range 14, pc 13 k • a ^ k ∧
    -(pade13 0 a).1 + (pade13 0 a).2 = ∑ k ∈ range 14, ((-1) ^ k * pc 13 k) • a ^ k := by
  refine pade_of_real (FP := pade13 0 X) (Fr := pade13 0) (by rw [pade13_hom, aeval_X]) (fun x => by rw [pade13_hom, aeval_X]) ?_ ?_ <;>
  · intro x
    norm_num [pade13, sum_range_succ, pc, Nat.factorial]
    ring

theorem pade7s_zero (a : R) : pade7s 0 a = pade7 a := by simp [pade7s, pade7]

theorem two_zpow (s k : ℕ) : (2 : ℝ) ^ (-(k : ℤ) * (s : ℤ)) = ((1 / 2 : ℝ) ^ s) ^ k := by
  rw [neg_mul, zpow_neg, ← Nat.cast_mul, zpow_natCast, mul_comm, pow_mul, one_div, inv_pow, inv_pow]

theorem pade13_scale (s : ℕ) (a : R) : pade13 s a = pade13 0 ((1 / 2 : ℝ) ^ s • a) := by
  have h1 := two_zpow s 1
  have h2 := two_zpow s 2
  have h4 := two_zpow s 4
  have h6 := two_zpow s 6
  push_cast at h1 h2 h4 h6
  rw [neg_one_mul, pow_one] at h1
  simp only [pade13, h1, h2, h4, h6, Nat.cast_zero, neg_zero, mul_zero, zpow_zero, one_smul, ← pow_two, ← pow_add, ← pow_mul]
  norm_num [smul_pow, ← pow_mul]

theorem pade7s_scale (s : ℕ) (a : R) : pade7s s a = pade7s 0 ((1 / 2 : ℝ) ^ s • a) := by
  have h1 := two_zpow s 1
  have h2 := two_zpow s 2
  have h4 := two_zpow s 4
  have h6 := two_zpow s 6
  push_cast at h1 h2 h4 h6
  rw [neg_one_mul, pow_one] at h1
  simp only [pade7s, h1, h2, h4, h6, Nat.cast_zero, neg_zero, mul_zero, zpow_zero, one_smul, ← pow_two, ← pow_add, ← pow_mul]
  norm_num [smul_pow, ← pow_mul]

end sums

/-- The polynomial with the given coefficients. -/
noncomputable def poly (c : ℕ → ℝ) (m : ℕ) : ℝ[X] := ∑ k ∈ range m, C (c k) * X ^ k

theorem poly_coeff (c : ℕ → ℝ) (m k : ℕ) : (poly c m).coeff k = if k < m then c k else 0 := by
  simp only [poly, finsetSum_coeff, coeff_C_mul, coeff_X_pow, mul_ite, mul_one, mul_zero]
  rw [sum_ite_eq]
  simp only [mem_range]

theorem pc_eq {m : ℕ} (hm : 0 < m) (k : ℕ) : (if k < m + 1 then pc m k else 0) = ((2 * m - k).descFactorial m : ℝ) / k.factorial := by
  split_ifs with h
  · have h1 := Nat.factorial_mul_descFactorial (n := 2 * m - k) (k := m) (by omega)
    rw [show 2 * m - k - m = m - k by omega] at h1
    rw [pc, ← h1]
    push_cast
    have := Nat.factorial_pos (m - k)
    field_simp
  · rw [Nat.descFactorial_eq_zero_iff_lt.2 (by omega)]
    simp

theorem difference {m : ℕ} (hm : m ∈ [3, 5, 7, 9, 13]) : ∀ k < 2 * m + 1,
    ∑ j ∈ range (k + 1), (-1 : ℤ) ^ j * (k.choose j * (2 * m - j).descFactorial m : ℕ) = ((2 * m - k).descFactorial m : ℕ) := by
  simp only [List.mem_cons, List.not_mem_nil, or_false] at hm
  rcases hm with rfl | rfl | rfl | rfl | rfl <;> decide +kernel

theorem order_aux {m : ℕ} (hm : m ∈ [3, 5, 7, 9, 13]) :
    X ^ (2 * m + 1) ∣ poly (pc m) (m + 1) - poly (fun k => (-1) ^ k * pc m k) (m + 1) * poly (fun k => 1 / (k.factorial : ℝ)) (2 * m + 1) := by
  rw [X_pow_dvd_iff]
  intro k hk
  have hm0 : 0 < m := by
    simp only [List.mem_cons, List.not_mem_nil, or_false] at hm
    omega
  rw [coeff_sub, coeff_mul, Nat.sum_antidiagonal_eq_sum_range_succ_mk, poly_coeff, pc_eq hm0, sub_eq_zero]
  have h := congrArg (fun z : ℤ => (z : ℝ)) (difference hm k hk)
  push_cast at h
  rw [← h, sum_div]
  refine sum_congr rfl fun j hj => ?_
  rw [mem_range] at hj
  have h1 : (poly (fun k => (-1) ^ k * pc m k) (m + 1)).coeff j = (-1) ^ j * (((2 * m - j).descFactorial m : ℝ) / j.factorial) := by
    rw [poly_coeff, ← pc_eq hm0, mul_ite, mul_zero]
  rw [h1, poly_coeff, if_pos (by omega)]
  have h2 : ((k.choose j : ℝ)) * j.factorial * (k - j).factorial = k.factorial := by
    exact_mod_cast Nat.choose_mul_factorial_mul_factorial (by omega : j ≤ k)
  have e1 := Nat.factorial_pos j
  have e2 := Nat.factorial_pos (k - j)
  have e3 := Nat.factorial_pos k
  field_simp
  rw [← h2]
  ring

/-- **C123.** The pairs `U`, `V` give the Padé approximants of the exponential: `U + V` has the coefficients of the numerator and `V - U` those of the denominator. -/
theorem c123_coefficients {R : Type} [Ring R] [Algebra ℝ R] (a : R) {m : ℕ} {UV : R × R}
    (h : (m, UV) ∈ [(3, pade3 a), (5, pade5 a), (7, pade7 a), (9, pade9 a), (13, pade13 0 a), (7, pade7s 0 a)]) :
    UV.1 + UV.2 = ∑ j ∈ range (m + 1), (((2 * m - j).factorial : ℝ) / ((m - j).factorial * j.factorial)) • a ^ j ∧
    -UV.1 + UV.2 = ∑ j ∈ range (m + 1), ((-1) ^ j * (((2 * m - j).factorial : ℝ) / ((m - j).factorial * j.factorial))) • a ^ j := by
  simp only [List.mem_cons, List.not_mem_nil, or_false, Prod.mk.injEq] at h
  rcases h with ⟨rfl, rfl⟩ | ⟨rfl, rfl⟩ | ⟨rfl, rfl⟩ | ⟨rfl, rfl⟩ | ⟨rfl, rfl⟩ | ⟨rfl, rfl⟩
  · exact pade3_sum a
  · exact pade5_sum a
  · exact pade7_sum a
  · exact pade9_sum a
  · exact pade13_sum a
  · rw [pade7s_zero]; exact pade7_sum a

/-- The numerator and the denominator of degree three at the number two. -/
example : (pade3 (2 : ℝ)).1 + (pade3 (2 : ℝ)).2 = 120 + 60 * 2 + 12 * 2 ^ 2 + 2 ^ 3 ∧ -(pade3 (2 : ℝ)).1 + (pade3 (2 : ℝ)).2 = 120 - 60 * 2 + 12 * 2 ^ 2 - 2 ^ 3 := by
  have := c123_coefficients (2 : ℝ) (m := 3) (UV := pade3 2) (by simp)
  norm_num [sum_range_succ, Nat.factorial] at this ⊢
  exact this

/-- **C123.** Their quotient agrees with the exponential up to the power `2 m`. -/
theorem c123_order {m : ℕ} {UV : ℝ[X] × ℝ[X]}
    (h : (m, UV) ∈ [(3, pade3 X), (5, pade5 X), (7, pade7 X), (9, pade9 X), (13, pade13 0 X), (7, pade7s 0 X)]) :
    X ^ (2 * m + 1) ∣ (UV.1 + UV.2) - (-UV.1 + UV.2) * ∑ k ∈ range (2 * m + 1), C (1 / (k.factorial : ℝ)) * X ^ k := by
  obtain ⟨hp, hq⟩ := c123_coefficients (X : ℝ[X]) h
  have hm : m ∈ [3, 5, 7, 9, 13] := by
    simp only [List.mem_cons, List.not_mem_nil, or_false, Prod.mk.injEq] at h ⊢
    omega
  have := order_aux hm
  rw [hp, hq]
  simpa only [poly, smul_eq_C_mul, pc] using this

/-- The approximant of degree thirteen, for instance, agrees with the exponential up to the power 26. -/
example : X ^ 27 ∣ ((pade13 0 (X : ℝ[X])).1 + (pade13 0 X).2) - (-(pade13 0 X).1 + (pade13 0 X).2) * ∑ k ∈ range 27, C (1 / (k.factorial : ℝ)) * X ^ k :=
  c123_order (m := 13) (by simp)

/-- **C123.** The scaled versions are those of the scaled matrix. -/
theorem c123_scaled {R : Type} [Ring R] [Algebra ℝ R] (a : R) (s : ℕ) :
    pade13 s a = pade13 0 ((1 / 2 ^ s : ℝ) • a) ∧ pade7s s a = pade7s 0 ((1 / 2 ^ s : ℝ) • a) := by
  rw [pade13_scale, pade7s_scale, one_div_pow]
  exact ⟨rfl, rfl⟩

/-- With two halvings the number eight becomes two. -/
example : pade13 2 (8 : ℝ) = pade13 0 2 := by
  rw [(c123_scaled (8 : ℝ) 2).1]
  norm_num

section nil
open NormedSpace
variable {n : ℕ}

theorem exp_nil {A : Mat n} {N : ℕ} (h : A ^ N = 0) : exp A = ∑ k ∈ range N, (1 / (k.factorial : ℝ)) • A ^ k := by
  rw [exp_eq_tsum ℝ]
  simp only [one_div]
  refine tsum_eq_sum fun k hk => ?_
  rw [mem_range, not_lt] at hk
  rw [pow_eq_zero_of_le hk h, smul_zero]

theorem solve_nil {A : Mat n} {m : ℕ} (hm : m ∈ [3, 5, 7, 9, 13]) {UV : Mat n × Mat n} (hA : A ^ (2 * m + 1) = 0)
    (h : UV.1 + UV.2 = ∑ k ∈ range (m + 1), pc m k • A ^ k ∧ -UV.1 + UV.2 = ∑ k ∈ range (m + 1), ((-1) ^ k * pc m k) • A ^ k) :
    solvePQ UV = .ok (exp A) := by
  have hPQ : UV.1 + UV.2 = (-UV.1 + UV.2) * exp A := by
    obtain ⟨r, hr⟩ := order_aux hm
    have h2 := congrArg (aeval A) hr
    rw [map_mul, map_pow, aeval_X, hA, zero_mul, map_sub, map_mul, sub_eq_zero] at h2
    simp only [poly, map_sum, map_mul (aeval A), map_pow (aeval A), aeval_X, aeval_C, ← Algebra.smul_def] at h2
    rw [h.1, h.2, exp_nil hA]
    exact h2
  have hu : IsUnit (-UV.1 + UV.2) := by
    rw [h.2, sum_range_succ', pow_zero, pow_zero, one_mul]
    have hN : (∑ k ∈ range m, ((-1) ^ (k + 1) * pc m (k + 1)) • A ^ (k + 1)) = A * ∑ k ∈ range m, ((-1) ^ (k + 1) * pc m (k + 1)) • A ^ k := by
      rw [mul_sum]
      exact sum_congr rfl fun k _ => by rw [mul_smul_comm, ← pow_succ']
    have hc : Commute A (∑ k ∈ range m, ((-1 : ℝ) ^ (k + 1) * pc m (k + 1)) • A ^ k) :=
      Commute.sum_right _ _ _ fun k _ => ((Commute.refl A).pow_right k).smul_right _
    have hnil : IsNilpotent (A * ∑ k ∈ range m, ((-1) ^ (k + 1) * pc m (k + 1)) • A ^ k) := hc.isNilpotent_mul_right ⟨_, hA⟩
    rw [hN, add_comm]
    have hpos : pc m 0 ≠ 0 := by unfold pc; positivity
    have hu0 : IsUnit (pc m 0 • (1 : Mat n)) := ⟨⟨pc m 0 • 1, (pc m 0)⁻¹ • 1, by simp [smul_smul, hpos], by simp [smul_smul, hpos]⟩, rfl⟩
    exact hnil.isUnit_add_left_of_commute hu0 ((Commute.one_right _).smul_right _)
  have hd : IsUnit (-UV.1 + UV.2).det := (Matrix.isUnit_iff_isUnit_det _).1 hu
  simp only [solvePQ]
  rw [if_neg hd.ne_zero, hPQ, ← mul_assoc, Matrix.nonsing_inv_mul _ hd, one_mul]

theorem smul_nil {A : Mat n} {N : ℕ} (hA : A ^ N = 0) (c : ℝ) : (c • A) ^ N = 0 := by rw [smul_pow, hA, smul_zero]

theorem scaled_nil {A : Mat n} (s : ℕ) : exp ((1 / 2 : ℝ) ^ s • A) ^ 2 ^ s = exp A := by
  rw [← Matrix.exp_nsmul]
  congr 1
  rw [← Nat.cast_smul_eq_nsmul ℝ, smul_smul]
  push_cast
  rw [← mul_pow]
  norm_num

/-- If it is a value, it is the exponential. -/
def Exact (A : Mat n) (r : Except Err (Mat n)) : Prop := ∀ X, r = .ok X → X = exp A

/-- **C123.** For a matrix whose seventh power is zero, such as the weights of an acyclic graph with at most seven vertices, whatever `expm64` and `expm32` return is
exactly the exponential. -/
theorem c123_nilpotent {A X : Mat n} (hA : A ^ 7 = 0) (h : expm64 A = .ok X ∨ expm32 A = .ok X) : X = exp A := by
  have up : ∀ {N}, 7 ≤ N → A ^ N = 0 := fun hN => pow_eq_zero_of_le hN hA
  have h3 : solvePQ (pade3 A) = .ok (exp A) := solve_nil (m := 3) (by simp) (up (by norm_num)) (pade3_sum A)
  have h5 : solvePQ (pade5 A) = .ok (exp A) := solve_nil (m := 5) (by simp) (up (by norm_num)) (pade5_sum A)
  have h7 : solvePQ (pade7 A) = .ok (exp A) := solve_nil (m := 7) (by simp) (up (by norm_num)) (pade7_sum A)
  have h9 : solvePQ (pade9 A) = .ok (exp A) := solve_nil (m := 9) (by simp) (up (by norm_num)) (pade9_sum A)
  have h13 : ∀ s, solvePQ (pade13 s A) = .ok (exp ((1 / 2 : ℝ) ^ s • A)) := fun s => by
    rw [pade13_scale]; exact solve_nil (m := 13) (by simp) (smul_nil (up (by norm_num)) _) (pade13_sum _)
  have h7s : ∀ s, solvePQ (pade7s s A) = .ok (exp ((1 / 2 : ℝ) ^ s • A)) := fun s => by
    rw [pade7s_scale, pade7s_zero]; exact solve_nil (m := 7) (by simp) (smul_nil (up (by norm_num)) _) (pade7_sum _)
  by_cases h1 : n = 1
  · have : X = entryExp A := by
      rcases h with h | h
      · simp only [expm64, if_pos h1] at h
        injection h with h; exact h.symm
      · simp only [expm32, if_pos h1] at h
        injection h with h; exact h.symm
    rw [this, entryExp_one h1]
  have hbind : ∀ {β : Type} {x : Except Err β} {f : β → Except Err (Mat n)}, (∀ b, Exact A (f b)) → Exact A (x >>= f) := fun {β x f} hf X hX => by
    cases x with
    | error e => cases hX
    | ok b => exact hf b X hX
  have hite : ∀ {c : Prop} [Decidable c] {x y : Except Err (Mat n)}, Exact A x → Exact A y → Exact A (if c then x else y) := fun hx hy => by
    split_ifs
    · exact hx
    · exact hy
  have hok : Exact A (.ok (exp A)) := fun X hX => by injection hX with hX; exact hX.symm
  have hlast : ∀ s, Exact A (do let X ← Except.ok (exp ((1 / 2 : ℝ) ^ s • A)); pure (X ^ 2 ^ s)) := fun s X hX => by
    have : X = exp ((1 / 2 : ℝ) ^ s • A) ^ 2 ^ s := by injection hX with hX; exact hX.symm
    rw [this, scaled_nil]
  rcases h with h | h
  · refine (?_ : Exact A (expm64 A)) X h
    simp only [expm64, if_neg h1, h3, h5, h7, h9, h13]
    repeat' first | exact hok | exact hlast _ | refine hite ?_ ?_ | refine hbind fun _ => ?_
  · refine (?_ : Exact A (expm32 A)) X h
    simp only [expm32, if_neg h1, h3, h5, h7s]
    repeat' first | exact hok | exact hlast _ | refine hite ?_ ?_ | refine hbind fun _ => ?_

/-! ### C124 -/

theorem dTight_zero {A : Mat n} (hA : A * A = 0) {k : ℕ} (hk : 2 ≤ k) : dTight A k = 0 := by
  have h2 : A ^ 2 = 0 := by rw [pow_two, hA]
  rw [dTight, pow_eq_zero_of_le hk h2]
  have : sumNorm (0 : Mat n) = 0 := by simp [sumNorm]
  rw [this, Real.zero_rpow]
  have : (0 : ℝ) < k := by exact_mod_cast (by omega : 0 < k)
  positivity

/-- The matrix of the counterexample: its square is zero. -/
def bad (c : ℝ) : Mat 2 := !![c, -c; c, -c]

theorem bad_sq (c : ℝ) : bad c * bad c = 0 := by
  ext i j
  fin_cases i <;> fin_cases j <;> simp [bad]

theorem bad_ell {c u : ℝ} (hc : 1000 ≤ c) (hu : 0 < u) {m : ℕ} (hm : 0 < m)
    (hbig : 2 * u * ((2 * (2 * m + 1)).choose (2 * m + 1) * (2 * (2 * m + 1) + 1).factorial : ℕ) < 2000 ^ (2 * m)) :
    ∃ l, ell u (bad c) m = .ok (l + 1) := by
  have habs : (Matrix.of fun i j => |bad c i j|).transpose = Matrix.of fun _ _ => c := by
    ext i j
    fin_cases i <;> fin_cases j <;> simp [bad, abs_of_nonneg (by linarith : 0 ≤ c)]
  have hit : ∀ p, (fun v : Fin 2 → ℝ => (Matrix.of fun _ _ => c : Mat 2).mulVec v)^[p] (fun _ => 1) = fun _ => (2 * c) ^ p := by
    intro p
    induction p with
    | zero => simp
    | succ p ih =>
      rw [Function.iterate_succ_apply', ih]
      funext i
      simp [Matrix.mulVec, dotProduct, pow_succ]
      ring
  have hr : onenormPower (Matrix.of fun i j => |bad c i j|) (2 * m + 1) = .ok ((2 * c) ^ (2 * m + 1)) := by
    simp only [onenormPower, habs, hit]
    rw [dif_pos (by norm_num)]
    congr 1
    exact Finset.sup'_const _ _
  have hs : sumNorm (bad c) = 4 * c := by
    simp [sumNorm, bad, Fin.sum_univ_two, abs_of_nonneg (by linarith : 0 ≤ c)]
    ring
  set q : ℕ := (2 * (2 * m + 1)).choose (2 * m + 1) * (2 * (2 * m + 1) + 1).factorial with hq
  have hqpos : (0 : ℝ) < q := by
    have h1 : 0 < (2 * (2 * m + 1)).choose (2 * m + 1) := Nat.choose_pos (by omega)
    have h2 := Nat.factorial_pos (2 * (2 * m + 1) + 1)
    exact_mod_cast Nat.mul_pos h1 h2
  have hc0 : 0 < c := by linarith
  have hal : 1 < (2 * c) ^ (2 * m + 1) / (4 * c * q) / u := by
    rw [lt_div_iff₀ hu, lt_div_iff₀ (by positivity), pow_succ]
    have h1 : (2000 : ℝ) ^ (2 * m) ≤ (2 * c) ^ (2 * m) := pow_le_pow_left₀ (by norm_num) (by linarith) _
    nlinarith
  have hceil : 0 < ⌈Real.logb 2 ((2 * c) ^ (2 * m + 1) / (4 * c * q) / u) / (2 * m)⌉ := by
    refine Int.ceil_pos.2 (div_pos (Real.logb_pos (by norm_num) hal) ?_)
    exact_mod_cast (by omega : 0 < 2 * m)
  refine ⟨(max ⌈Real.logb 2 ((2 * c) ^ (2 * m + 1) / (4 * c * q) / u) / (2 * m)⌉ 0).toNat - 1, ?_⟩
  simp only [ell, hr, hs]
  have hr0 : (2 * c) ^ (2 * m + 1) ≠ 0 := by positivity
  show (if (2 * c) ^ (2 * m + 1) = 0 then (Except.ok 0 : Except Err ℕ) else _) = _
  rw [if_neg hr0]
  show Except.ok _ = Except.ok _
  congr 1
  rw [← hq]
  omega

/-- **C124** is false of the code: there are matrices with square zero, as large as one likes, for which `expm64` and `expm32` raise, although the exponential is `1 + A`. -/
theorem c124_false (c : ℝ) (hc : 1000 ≤ c) : ∃ A : Mat 2, A 0 0 = c ∧ A * A = 0 ∧ exp A = 1 + A ∧ expm64 A = .error .exception ∧ expm32 A = .error .exception := by
  have hsq := bad_sq c
  have hd : ∀ k, 2 ≤ k → dTight (bad c) k = 0 := fun k hk => dTight_zero hsq hk
  refine ⟨bad c, rfl, hsq, ?_, ?_, ?_⟩
  · rw [exp_nil (N := 2) (by rw [pow_two, hsq])]
    simp [sum_range_succ]
  · obtain ⟨l3, h3⟩ := bad_ell (u := 2 ^ (-53 : ℤ)) hc (by positivity) (m := 3) (by norm_num) (by norm_num [Nat.choose, Nat.factorial])
    obtain ⟨l5, h5⟩ := bad_ell (u := 2 ^ (-53 : ℤ)) hc (by positivity) (m := 5) (by norm_num) (by norm_num [Nat.choose, Nat.factorial])
    obtain ⟨l7, h7⟩ := bad_ell (u := 2 ^ (-53 : ℤ)) hc (by positivity) (m := 7) (by norm_num) (by norm_num [Nat.choose, Nat.factorial])
    obtain ⟨l9, h9⟩ := bad_ell (u := 2 ^ (-53 : ℤ)) hc (by positivity) (m := 9) (by norm_num) (by norm_num [Nat.choose, Nat.factorial])
    simp only [expm64, hd 4 (by norm_num), hd 6 (by norm_num), hd 8 (by norm_num), hd 10 (by norm_num), max_self, min_self, h3, h5, h7, h9]
    norm_num [firstScale]
    rfl
  · obtain ⟨l3, h3⟩ := bad_ell (u := 2 ^ (-24 : ℤ)) hc (by positivity) (m := 3) (by norm_num) (by norm_num [Nat.choose, Nat.factorial])
    obtain ⟨l5, h5⟩ := bad_ell (u := 2 ^ (-24 : ℤ)) hc (by positivity) (m := 5) (by norm_num) (by norm_num [Nat.choose, Nat.factorial])
    simp only [expm32, hd 4 (by norm_num), hd 6 (by norm_num), hd 8 (by norm_num), max_self, h3, h5]
    norm_num [firstScale]
    rfl

end nil

section small
open NormedSpace
open scoped Matrix.Norms.Operator
variable {n : ℕ}

theorem sumNorm_nonneg (A : Mat n) : 0 ≤ sumNorm A := sum_nonneg fun _ _ => sum_nonneg fun _ _ => abs_nonneg _

theorem sumNorm_mul (A B : Mat n) : sumNorm (A * B) ≤ sumNorm A * sumNorm B := by
  have hB : ∀ k, ∑ j, |B k j| ≤ sumNorm B := fun k =>
    single_le_sum (f := fun i => ∑ j, |B i j|) (fun _ _ => sum_nonneg fun _ _ => abs_nonneg _) (mem_univ k)
  rw [sumNorm, sumNorm, sum_mul]
  refine sum_le_sum fun i _ => ?_
  calc ∑ j, |(A * B) i j| ≤ ∑ j, ∑ k, |A i k| * |B k j| := by
        refine sum_le_sum fun j _ => ?_
        rw [Matrix.mul_apply]
        refine (abs_sum_le_sum_abs _ _).trans (le_of_eq (sum_congr rfl fun k _ => abs_mul _ _))
    _ = ∑ k, |A i k| * ∑ j, |B k j| := by rw [sum_comm]; simp only [mul_sum]
    _ ≤ ∑ k, |A i k| * sumNorm B := sum_le_sum fun k _ => mul_le_mul_of_nonneg_left (hB k) (abs_nonneg _)
    _ = (∑ k, |A i k|) * sumNorm B := (sum_mul _ _ _).symm

theorem sumNorm_pow (A : Mat n) (k : ℕ) : sumNorm (A ^ (k + 1)) ≤ sumNorm A ^ (k + 1) := by
  induction k with
  | zero => simp
  | succ k ih =>
    rw [pow_succ, pow_succ (sumNorm A)]
    exact (sumNorm_mul _ _).trans (mul_le_mul_of_nonneg_right ih (sumNorm_nonneg A))

theorem dTight_le (A : Mat n) {k : ℕ} (hk : 0 < k) : dTight A k ≤ sumNorm A := by
  obtain ⟨k, rfl⟩ : ∃ l, k = l + 1 := ⟨k - 1, by omega⟩
  rw [dTight]
  have h0 := sumNorm_nonneg A
  refine (Real.rpow_le_rpow (sumNorm_nonneg _) (sumNorm_pow A k) (by positivity)).trans (le_of_eq ?_)
  rw [one_div]
  exact Real.pow_rpow_inv_natCast h0 (by omega)

theorem ell_small {u : ℝ} (hu : 1 / 2 ^ 53 ≤ u) {A : Mat n} (hn : 0 < n) (hA : sumNorm A ≤ 1 / 200) : ell u A 3 = .ok 0 := by
  have h0 := sumNorm_nonneg A
  have hu0 : 0 < u := lt_of_lt_of_le (by norm_num) hu
  have hrow : ∀ (v : Fin n → ℝ) (b : ℝ), 0 ≤ b → (∀ i, 0 ≤ v i ∧ v i ≤ b) →
      ∀ i, 0 ≤ (Matrix.of fun i j => |A i j|).transpose.mulVec v i ∧ (Matrix.of fun i j => |A i j|).transpose.mulVec v i ≤ b * sumNorm A := by
    intro v b hb hv i
    simp only [Matrix.mulVec, dotProduct, Matrix.transpose_apply, Matrix.of_apply]
    refine ⟨sum_nonneg fun j _ => mul_nonneg (abs_nonneg _) (hv j).1, ?_⟩
    calc ∑ j, |A j i| * v j ≤ ∑ j, |A j i| * b := sum_le_sum fun j _ => mul_le_mul_of_nonneg_left (hv j).2 (abs_nonneg _)
      _ = b * ∑ j, |A j i| := by rw [← sum_mul, mul_comm]
      _ ≤ b * sumNorm A := by
        refine mul_le_mul_of_nonneg_left ?_ hb
        exact sum_le_sum fun j _ => single_le_sum (f := fun i => |A j i|) (fun i _ => abs_nonneg _) (mem_univ i)
  have hit : ∀ p i, 0 ≤ (fun v => (Matrix.of fun i j => |A i j|).transpose.mulVec v)^[p] (fun _ => (1 : ℝ)) i ∧
      (fun v => (Matrix.of fun i j => |A i j|).transpose.mulVec v)^[p] (fun _ => (1 : ℝ)) i ≤ sumNorm A ^ p := by
    intro p
    induction p with
    | zero => intro i; simp
    | succ p ih =>
      intro i
      rw [Function.iterate_succ_apply', pow_succ]
      exact hrow _ _ (by positivity) ih i
  obtain ⟨r, hr, hr0, hr1⟩ : ∃ r, onenormPower (Matrix.of fun i j => |A i j|) 7 = .ok r ∧ 0 ≤ r ∧ r ≤ sumNorm A ^ 7 := by
    simp only [onenormPower]
    rw [dif_pos hn]
    refine ⟨_, rfl, ?_, ?_⟩
    · exact (hit 7 ⟨0, hn⟩).1.trans (Finset.le_sup' _ (mem_univ _))
    · exact Finset.sup'_le _ _ fun i _ => (hit 7 i).2
  simp only [ell]
  norm_num only
  rw [hr]
  show (if r = 0 then (Except.ok 0 : Except Err ℕ) else _) = _
  split_ifs with h
  · rfl
  have hrp : 0 < r := lt_of_le_of_ne hr0 (Ne.symm h)
  have hA0 : 0 < sumNorm A := by
    rcases h0.lt_or_eq with h1 | h1
    · exact h1
    · rw [← h1] at hr1; norm_num at hr1; linarith
  show Except.ok _ = Except.ok _
  congr 1
  have hq : ((Nat.choose 14 7 * 1307674368000 : ℕ) : ℝ) = 3432 * 1307674368000 := by norm_num [Nat.choose]
  rw [hq]
  have hle : r / (sumNorm A * (3432 * 1307674368000)) / u ≤ 1 := by
    rw [div_le_one hu0, div_le_iff₀ (by positivity)]
    have h6 : sumNorm A ^ 6 ≤ (1 / 200) ^ 6 := pow_le_pow_left₀ h0 hA 6
    have h7 : sumNorm A ^ 7 = sumNorm A ^ 6 * sumNorm A := pow_succ _ _
    have h8 : sumNorm A ^ 6 * sumNorm A ≤ (1 / 200) ^ 6 * sumNorm A := mul_le_mul_of_nonneg_right h6 h0
    have h9 : 1 / 2 ^ 53 * (sumNorm A * (3432 * 1307674368000)) ≤ u * (sumNorm A * (3432 * 1307674368000)) :=
      mul_le_mul_of_nonneg_right hu (by positivity)
    norm_num at h8 h9 ⊢
    linarith
  have hlog : Real.logb 2 (r / (sumNorm A * (3432 * 1307674368000)) / u) ≤ 0 := Real.logb_nonpos (by norm_num) (by positivity) hle
  have hc : ⌈Real.logb 2 (r / (sumNorm A * (3432 * 1307674368000)) / u) / 6⌉ ≤ 0 := by
    rw [Int.ceil_le]
    push_cast
    linarith
  rw [max_eq_right hc]
  rfl

theorem pade3_aeval {S : Type*} [Ring S] [Algebra ℝ S] (y : S) : aeval y (pade3 (X : ℝ[X])).1 = (pade3 y).1 ∧ aeval y (pade3 (X : ℝ[X])).2 = (pade3 y).2 := by
  have := pade3_hom (aeval y) (X : ℝ[X])
  rw [aeval_X, Prod.ext_iff] at this
  exact this

section ring
variable {R : Type*} [NormedRing R] [NormedAlgebra ℝ R] [CompleteSpace R] [NormOneClass R] {a x : R} {ν : ℝ}

omit [CompleteSpace R] in
/-- The denominator of the approximant of degree three, without the constant term. -/
theorem denom_norm (hν : ‖a‖ ≤ ν) (hs : ν ≤ 1 / 200) : ‖(60 : ℝ) • a - (12 : ℝ) • a ^ 2 + a ^ 3‖ ≤ 1 := by
  have h0 : 0 ≤ ν := (norm_nonneg a).trans hν
  have h1 : ‖(60 : ℝ) • a‖ ≤ 60 * ν := by
    rw [norm_smul]; norm_num; linarith
  have h2 : ‖(12 : ℝ) • a ^ 2‖ ≤ 12 * ν ^ 2 := by
    rw [norm_smul]; norm_num
    exact (norm_pow_le a 2).trans (pow_le_pow_left₀ (norm_nonneg _) hν 2)
  have h3 : ‖a ^ 3‖ ≤ ν ^ 3 := (norm_pow_le a 3).trans (pow_le_pow_left₀ (norm_nonneg _) hν 3)
  have h4 := norm_add_le ((60 : ℝ) • a - (12 : ℝ) • a ^ 2) (a ^ 3)
  have h5 := norm_sub_le ((60 : ℝ) • a) ((12 : ℝ) • a ^ 2)
  have h6 : ν ^ 2 ≤ (1 / 200) ^ 2 := pow_le_pow_left₀ h0 hs 2
  have h7 : ν ^ 3 ≤ (1 / 200) ^ 3 := pow_le_pow_left₀ h0 hs 3
  norm_num at h6 h7 ⊢
  linarith

theorem small_near (hν : ‖a‖ ≤ ν) (hs : ν ≤ 1 / 200) (hx : (-(pade3 a).1 + (pade3 a).2) * x = (pade3 a).1 + (pade3 a).2) : ‖x - exp a‖ ≤ 1 / 2 ^ 53 * ν := by
  have h0 : 0 ≤ ν := (norm_nonneg a).trans hν
  set d := (60 : ℝ) • a - (12 : ℝ) • a ^ 2 + a ^ 3 with hd
  have hdn : ‖d‖ ≤ 1 := denom_norm hν hs
  have hQ : -(pade3 a).1 + (pade3 a).2 = (120 : ℝ) • (1 : R) - d := by
    rw [(pade3_sum a).2, hd]
    norm_num [sum_range_succ, pc, Nat.factorial]
    abel
  obtain ⟨W, hW⟩ : ∃ W : R, (pade3 a).1 + (pade3 a).2 - (-(pade3 a).1 + (pade3 a).2) * partSum 7 a = W := ⟨_, rfl⟩
  have hWs : W = ∑ k ∈ range 10, (if k = 7 then (1 / 40 : ℝ) else if k = 8 then -1 / 120 else if k = 9 then 1 / 720 else 0) • a ^ k := by
    refine sum_of_real (FP := (pade3 X).1 + (pade3 X).2 - (-(pade3 X).1 + (pade3 X).2) * ∑ k ∈ range 7, C (1 / (k.factorial : ℝ)) * X ^ k)
      (Fr := fun y => (pade3 y).1 + (pade3 y).2 - (-(pade3 y).1 + (pade3 y).2) * ∑ k ∈ range 7, 1 / (k.factorial : ℝ) * y ^ k) ?_ (fun y => ?_) fun y => ?_
    · rw [← hW, partSum]
      simp only [map_sub, map_add, map_mul, map_neg, map_sum, map_pow, aeval_X, aeval_C, (pade3_aeval a).1, (pade3_aeval a).2, Algebra.smul_def]
    · simp only [map_sub, map_add, map_mul, map_neg, map_sum, map_pow, aeval_X, aeval_C, (pade3_aeval y).1, (pade3_aeval y).2]
      rfl
    · norm_num [pade3, sum_range_succ, Nat.factorial]
      ring
  have hpw : ∀ k, ‖a ^ k‖ ≤ ν ^ k := fun k => (norm_pow_le a k).trans (pow_le_pow_left₀ (norm_nonneg _) hν k)
  have hν7 : 0 ≤ ν ^ 7 := by positivity
  have hWn : ‖W‖ ≤ 1 / 38 * ν ^ 7 := by
    rw [hWs]
    simp only [sum_range_succ, range_zero, sum_empty]
    norm_num
    have e8 : ν ^ 8 ≤ 1 / 200 * ν ^ 7 := by rw [pow_succ]; nlinarith
    have e9 : ν ^ 9 ≤ 1 / 200 * ν ^ 7 := by
      have : ν ^ 9 = ν ^ 7 * (ν * ν) := by ring
      rw [this]
      have : ν * ν ≤ 1 / 200 := by nlinarith
      nlinarith
    have h1 := norm_add_le ((1 / 40 : ℝ) • a ^ 7 + (-1 / 120 : ℝ) • a ^ 8) ((1 / 720 : ℝ) • a ^ 9)
    have h2 := norm_add_le ((1 / 40 : ℝ) • a ^ 7) ((-1 / 120 : ℝ) • a ^ 8)
    have h7 : ‖(1 / 40 : ℝ) • a ^ 7‖ ≤ 1 / 40 * ν ^ 7 := by
      rw [norm_smul]; norm_num; linarith [hpw 7]
    have h8 : ‖(-1 / 120 : ℝ) • a ^ 8‖ ≤ 1 / 120 * ν ^ 8 := by
      rw [norm_smul]; norm_num; linarith [hpw 8]
    have h9 : ‖(1 / 720 : ℝ) • a ^ 9‖ ≤ 1 / 720 * ν ^ 9 := by
      rw [norm_smul]; norm_num; linarith [hpw 9]
    norm_num at h1 h2 h7 h8 h9 ⊢
    linarith
  have ht := exp_tail 7 a hν
  have hkey : (120 : ℝ) • (x - exp a) = d * (x - exp a) + W - ((120 : ℝ) • (1 : R) - d) * (exp a - partSum 7 a) := by
    rw [← hW, ← hx, hQ]
    simp only [sub_mul, mul_sub, smul_mul_assoc, one_mul, smul_sub]
    abel
  have hE : Real.exp ν ≤ 1.01 := by
    refine (Real.exp_le_exp.2 hs).trans (exp_le_small (by norm_num) (by norm_num) (by norm_num))
  have hn : ‖(120 : ℝ) • (x - exp a)‖ ≤ 1 * ‖x - exp a‖ + 1 / 38 * ν ^ 7 + 121 * (ν ^ 7 / 5040 * 1.01) := by
    rw [hkey]
    refine (norm_sub_le _ _).trans (add_le_add ((norm_add_le _ _).trans (add_le_add ?_ hWn)) ?_)
    · exact (norm_mul_le _ _).trans (mul_le_mul_of_nonneg_right hdn (norm_nonneg _))
    · refine (norm_mul_le _ _).trans (mul_le_mul ?_ (ht.trans ?_) (norm_nonneg _) (by norm_num))
      · refine (norm_sub_le _ _).trans ?_
        have : ‖(120 : ℝ) • (1 : R)‖ = 120 := by rw [norm_smul, norm_one]; norm_num
        linarith
      · norm_num [Nat.factorial] at hE ⊢
        exact mul_le_mul_of_nonneg_left hE (by positivity)
  rw [norm_smul] at hn
  have h6 : ν ^ 6 ≤ (1 / 200) ^ 6 := pow_le_pow_left₀ h0 hs 6
  have h7 : ν ^ 7 ≤ (1 / 200) ^ 6 * ν := by rw [pow_succ]; exact mul_le_mul_of_nonneg_right h6 h0
  norm_num at hn h7 ⊢
  linarith

end ring

theorem small_solve {A : Mat n} (hs : sumNorm A ≤ 1 / 200) :
    ∃ X, solvePQ (pade3 A) = .ok X ∧ ∀ i, ∑ j, |X i j - exp A i j| ≤ 1 / 2 ^ 53 * sumNorm A := by
  rcases Nat.eq_zero_or_pos n with rfl | hn
  · refine ⟨(pade3 A).1, ?_, fun i => i.elim0⟩
    · simp only [solvePQ]
      rw [if_neg (by simp)]
      congr 1
  have : Nonempty (Fin n) := ⟨⟨0, hn⟩⟩
  have hν := norm_le_sum A
  have hd := denom_norm hν hs
  have hQ : -(pade3 A).1 + (pade3 A).2 = (120 : ℝ) • (1 - (1 / 120 : ℝ) • ((60 : ℝ) • A - (12 : ℝ) • A ^ 2 + A ^ 3)) := by
    rw [(pade3_sum A).2, smul_sub, smul_smul]
    norm_num [sum_range_succ, pc, Nat.factorial]
    abel
  have hu : IsUnit (-(pade3 A).1 + (pade3 A).2) := by
    rw [hQ]
    have h1 : ‖(1 / 120 : ℝ) • ((60 : ℝ) • A - (12 : ℝ) • A ^ 2 + A ^ 3)‖ < 1 := by
      rw [norm_smul]; norm_num; linarith
    have h2 := (Units.oneSub _ h1).isUnit
    rw [Units.val_oneSub] at h2
    exact h2.smul (Units.mk0 (120 : ℝ) (by norm_num))
  have hdet : IsUnit (-(pade3 A).1 + (pade3 A).2).det := (Matrix.isUnit_iff_isUnit_det _).1 hu
  refine ⟨(-(pade3 A).1 + (pade3 A).2)⁻¹ * ((pade3 A).1 + (pade3 A).2), ?_, fun i => ?_⟩
  · simp only [solvePQ]
    rw [if_neg hdet.ne_zero]
  · have h := small_near (x := (-(pade3 A).1 + (pade3 A).2)⁻¹ * ((pade3 A).1 + (pade3 A).2)) hν hs
      (by rw [← mul_assoc, Matrix.mul_nonsing_inv _ hdet, one_mul])
    exact (row_le _ i).trans h

/-- **C124**, for small matrices: the Padé versions return, and each row of the result is close to that of the exponential. -/
theorem c124_partial {A : Mat n} (hn : 0 < n) {ν : ℝ} (hν : ν = ∑ i, ∑ j, |A i j|) (hs : ν ≤ 1 / 200) :
    ∃ X, expm64 A = .ok X ∧ expm32 A = .ok X ∧ ∀ i, ∑ j, |X i j - exp A i j| ≤ 1 / 2 ^ 53 * ν := by
  have hs' : sumNorm A ≤ 1 / 200 := by rw [sumNorm, ← hν]; exact hs
  by_cases h1 : n = 1
  · refine ⟨entryExp A, ?_, ?_, fun i => ?_⟩
    · simp only [expm64, if_pos h1]; rfl
    · simp only [expm32, if_pos h1]; rfl
    · rw [entryExp_one h1]
      simp only [sub_self, abs_zero, sum_const_zero]
      have : 0 ≤ ν := hν ▸ sumNorm_nonneg A
      positivity
  obtain ⟨X, hX, hb⟩ := small_solve hs'
  have hη : max (dTight A 4) (dTight A 6) ≤ 1 / 200 := max_le ((dTight_le A (by norm_num)).trans hs') ((dTight_le A (by norm_num)).trans hs')
  refine ⟨X, ?_, ?_, fun i => ?_⟩
  · simp only [expm64, if_neg h1]
    rw [if_pos (lt_of_le_of_lt hη (by norm_num)), ell_small (by norm_num) hn hs', hX]
    rfl
  · simp only [expm32, if_neg h1]
    rw [if_pos (lt_of_le_of_lt hη (by norm_num)), ell_small (by norm_num) hn hs', hX]
    rfl
  · have := hb i
    rwa [sumNorm, ← hν] at this

/-- A matrix with a cycle. -/
example : ∃ X, expm64 (!![0, 1 / 500; 1 / 400, 0] : Mat 2) = .ok X ∧ |X 0 1 - exp (!![0, 1 / 500; 1 / 400, 0] : Mat 2) 0 1| ≤ 1 / 2 ^ 53 * (1 / 200) := by
  obtain ⟨X, h, _, hb⟩ := c124_partial (A := !![0, 1 / 500; 1 / 400, 0]) (ν := 9 / 2000) (by norm_num) (by norm_num [Fin.sum_univ_two]) (by norm_num)
  refine ⟨X, h, ?_⟩
  have := hb 0
  rw [Fin.sum_univ_two] at this
  have h0 := abs_nonneg (X 0 0 - exp (!![0, 1 / 500; 1 / 400, 0] : Mat 2) 0 0)
  norm_num at this ⊢
  linarith

/-- With `c123_nilpotent`: the weights of the chain `2 → 1 → 0`, where the result is exact. -/
example : expm64 (!![0, 1 / 500, 0; 0, 0, 1 / 400; 0, 0, 0] : Mat 3) = .ok (exp !![0, 1 / 500, 0; 0, 0, 1 / 400; 0, 0, 0]) := by
  have h : (!![0, 1 / 500, 0; 0, 0, 1 / 400; 0, 0, 0] : Mat 3) ^ 3 = 0 := by
    ext i j
    fin_cases i <;> fin_cases j <;> simp [pow_succ, Matrix.mul_apply, Fin.sum_univ_three]
  obtain ⟨X, h1, _, _⟩ := c124_partial (A := (!![0, 1 / 500, 0; 0, 0, 1 / 400; 0, 0, 0] : Mat 3)) (ν := 9 / 2000) (by norm_num)
    (by norm_num [Fin.sum_univ_succ]) (by norm_num)
  rw [h1, c123_nilpotent (pow_eq_zero_of_le (by norm_num) h) (Or.inl h1)]

end small

end Cdmir.Expm
