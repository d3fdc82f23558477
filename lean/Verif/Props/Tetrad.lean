import Verif.Model.Tetrad
import Mathlib.LinearAlgebra.Matrix.NonsingularInverse
import Mathlib.Tactic.FieldSimp
import Mathlib.Tactic.NormNum
import Mathlib.Tactic.Linarith

/-! C88-C90: the test of vanishing tetrad differences and the search for causal clusters. -/

set_option linter.unusedSectionVars false

namespace Cdmir.Tetrad
open BigOperators

variable {n : Nat}

theorem cov_comm (x y : Fin n → ℝ) : cov x y = cov y x := by
  unfold cov
  congr 1
  exact Finset.sum_congr rfl fun i _ => mul_comm _ _

theorem mean_affine (hn : n ≠ 0) (x : Fin n → ℝ) (a b : ℝ) : mean (fun i => a * x i + b) = a * mean x + b := by
  have hn' : (n : ℝ) ≠ 0 := by exact_mod_cast hn
  unfold mean
  rw [Finset.sum_add_distrib, ← Finset.mul_sum]
  simp
  field_simp

theorem cov_affine (hn : n ≠ 0) (x y : Fin n → ℝ) (a b c d : ℝ) :
    cov (fun i => a * x i + b) (fun i => c * y i + d) = a * c * cov x y := by
  unfold cov
  rw [mean_affine hn, mean_affine hn, mul_div_assoc', Finset.mul_sum]
  congr 1
  exact Finset.sum_congr rfl fun i _ => by ring

theorem cov_perm (x y : Fin n → ℝ) (σ : Equiv.Perm (Fin n)) : cov (fun i => x (σ i)) (fun i => y (σ i)) = cov x y := by
  have hm : ∀ x : Fin n → ℝ, mean (fun i => x (σ i)) = mean x := fun x => by
    unfold mean
    rw [Equiv.sum_comp σ x]
  unfold cov
  rw [hm, hm, Equiv.sum_comp σ (fun i => (x i - mean x) * (y i - mean y))]

theorem covMat_perm (a : Fin 4 → Fin n → ℝ) (σ : Equiv.Perm (Fin 4)) : (covMat (fun p => a (σ p))).det = (covMat a).det :=
  Matrix.det_submatrix_equiv_self σ (covMat a)

theorem covMat_scale (hn : n ≠ 0) (a : Fin 4 → Fin n → ℝ) (s t : Fin 4 → ℝ) :
    (covMat (fun p i => s p * a p i + t p)).det = (∏ p, s p) ^ 2 * (covMat a).det := by
  have : covMat (fun p i => s p * a p i + t p) = Matrix.diagonal s * covMat a * Matrix.diagonal s := by
    ext p q
    rw [Matrix.mul_diagonal, Matrix.diagonal_mul]
    simp only [covMat, Matrix.of_apply]
    rw [cov_affine hn]
    ring
  rw [this, Matrix.det_mul, Matrix.det_mul, Matrix.det_diagonal]
  ring

theorem tau_swap (i j k l : Fin n → ℝ) : tau j i k l = -tau i j k l := by
  unfold tau
  ring

theorem det4 (i j k l i' j' k' l' : Fin n → ℝ) (σ : Equiv.Perm (Fin 4)) (h : (fun p => ![i, j, k, l] (σ p)) = ![i', j', k', l']) :
    (covMat ![i', j', k', l']).det = (covMat ![i, j, k, l]).det := by
  rw [← h]
  exact covMat_perm _ σ

/-- C88. The p-value does not change if the two pairs are exchanged, or if both pairs are reversed. -/
theorem c88_symm (Φ : ℝ → ℝ) (i j k l : Fin n → ℝ) :
    pvalue Φ k l i j = pvalue Φ i j k l ∧ pvalue Φ j i l k = pvalue Φ i j k l := by
  have ht1 : tau k l i j = tau i j k l := by
    unfold tau
    rw [cov_comm k i, cov_comm l j, cov_comm k j, cov_comm l i]
    ring
  have ht2 : tau j i l k = tau i j k l := by
    unfold tau
    ring
  have hd1 := det4 i j k l k l i j (Equiv.swap 0 2 * Equiv.swap 1 3) (by funext p; fin_cases p <;> rfl)
  have hd2 := det4 i j k l j i l k (Equiv.swap 0 1 * Equiv.swap 2 3) (by funext p; fin_cases p <;> rfl)
  have hv1 : wvar k l i j = wvar i j k l := by
    unfold wvar
    simp only
    rw [hd1, cov_comm k j, cov_comm l i]
    ring
  have hv2 : wvar j i l k = wvar i j k l := by
    unfold wvar
    simp only
    rw [hd2]
    ring
  unfold pvalue
  rw [ht1, hv1, ht2, hv2]
  exact ⟨rfl, rfl⟩

/-- C88. The p-value does not change if a variable is shifted or multiplied by a number that is not 0. -/
theorem c88_affine (Φ : ℝ → ℝ) (x : Fin 4 → Fin n → ℝ) (a b : Fin 4 → ℝ) (ha : ∀ p, a p ≠ 0) :
    pvalue Φ (fun r => a 0 * x 0 r + b 0) (fun r => a 1 * x 1 r + b 1) (fun r => a 2 * x 2 r + b 2) (fun r => a 3 * x 3 r + b 3) =
      pvalue Φ (x 0) (x 1) (x 2) (x 3) := by
  unfold pvalue
  by_cases hn : n = 0
  · rw [if_pos hn, if_pos hn]
  rw [if_neg hn, if_neg hn]
  obtain ⟨c, hc⟩ : ∃ c, c = a 0 * a 1 * a 2 * a 3 := ⟨_, rfl⟩
  have hc0 : c ≠ 0 := hc ▸ mul_ne_zero (mul_ne_zero (mul_ne_zero (ha 0) (ha 1)) (ha 2)) (ha 3)
  have ht : tau (fun r => a 0 * x 0 r + b 0) (fun r => a 1 * x 1 r + b 1) (fun r => a 2 * x 2 r + b 2) (fun r => a 3 * x 3 r + b 3) =
      c * tau (x 0) (x 1) (x 2) (x 3) := by
    unfold tau
    rw [cov_affine hn, cov_affine hn, cov_affine hn, cov_affine hn, hc]
    ring
  have hm : (![fun r => a 0 * x 0 r + b 0, fun r => a 1 * x 1 r + b 1, fun r => a 2 * x 2 r + b 2, fun r => a 3 * x 3 r + b 3] :
      Fin 4 → Fin n → ℝ) = fun p i => a p * ![x 0, x 1, x 2, x 3] p i + b p := by
    funext p
    fin_cases p <;> rfl
  have hv : wvar (fun r => a 0 * x 0 r + b 0) (fun r => a 1 * x 1 r + b 1) (fun r => a 2 * x 2 r + b 2) (fun r => a 3 * x 3 r + b 3) =
      c ^ 2 * wvar (x 0) (x 1) (x 2) (x 3) := by
    unfold wvar
    simp only
    rw [hm, covMat_scale hn, Fin.prod_univ_four]
    rw [cov_affine hn, cov_affine hn, cov_affine hn, cov_affine hn, cov_affine hn, cov_affine hn, hc]
    ring
  rw [ht, hv]
  have h1 : c ^ 2 * wvar (x 0) (x 1) (x 2) (x 3) = 0 ↔ wvar (x 0) (x 1) (x 2) (x 3) = 0 := by simp [hc0]
  have h2 : c * tau (x 0) (x 1) (x 2) (x 3) = 0 ↔ tau (x 0) (x 1) (x 2) (x 3) = 0 := by simp [hc0]
  have h3 : |c * tau (x 0) (x 1) (x 2) (x 3) / Real.sqrt (abs (c ^ 2 * wvar (x 0) (x 1) (x 2) (x 3)))| =
      |tau (x 0) (x 1) (x 2) (x 3) / Real.sqrt (abs (wvar (x 0) (x 1) (x 2) (x 3)))| := by
    rw [abs_mul, abs_of_nonneg (sq_nonneg c), Real.sqrt_mul (sq_nonneg c), Real.sqrt_sq_eq_abs, abs_div, abs_div, abs_mul, abs_mul, abs_abs,
      mul_div_mul_left _ _ (abs_ne_zero.2 hc0)]
  simp only [h1, h2, h3]

/-- C88. The order of the rows does not matter. -/
theorem c88_rows (Φ : ℝ → ℝ) (i j k l : Fin n → ℝ) (σ : Equiv.Perm (Fin n)) :
    pvalue Φ (fun r => i (σ r)) (fun r => j (σ r)) (fun r => k (σ r)) (fun r => l (σ r)) = pvalue Φ i j k l := by
  have hm : covMat ![fun r => i (σ r), fun r => j (σ r), fun r => k (σ r), fun r => l (σ r)] = covMat ![i, j, k, l] := by
    have : (![fun r => i (σ r), fun r => j (σ r), fun r => k (σ r), fun r => l (σ r)] : Fin 4 → Fin n → ℝ) =
        fun p r => ![i, j, k, l] p (σ r) := by
      funext p
      fin_cases p <;> rfl
    rw [this]
    ext p q
    exact cov_perm _ _ σ
  unfold pvalue tau wvar
  simp only [cov_perm, hm]

/-- C88. From three rows on the p-value is the tail probability of a ratio that is 0 only if the tetrad difference is; it lies between 0 and 1 if the
distribution function is that of a symmetric distribution. -/
theorem c88_range (Φ : ℝ → ℝ) (h0 : ∀ x, 0 ≤ Φ x) (h1 : ∀ x ≤ 0, Φ x ≤ 1 / 2) (hn : 3 ≤ n) (i j k l : Fin n → ℝ) :
    ∃ p, pvalue Φ i j k l = .ok p ∧ ∀ q, p = some q → 0 ≤ q ∧ q ≤ 1 := by
  unfold pvalue
  rw [if_neg (by omega), if_neg (by omega)]
  by_cases hv : wvar i j k l = 0
  · rw [if_pos hv]
    refine ⟨_, rfl, fun q hq => ?_⟩
    split at hq
    · cases hq
    · cases hq
      norm_num
  · rw [if_neg hv]
    refine ⟨_, rfl, fun q hq => ?_⟩
    cases hq
    have := h1 (-|tau i j k l / Real.sqrt (abs (wvar i j k l))|) (neg_nonpos.2 (abs_nonneg _))
    have := h0 (-|tau i j k l / Real.sqrt (abs (wvar i j k l))|)
    constructor <;> linarith

/-- Six rows of four variables. -/
def witZ : Fin 4 → Fin 6 → ℤ := ![![-1, 1, 0, 0, 1, -1], ![1, 1, -1, -1, -1, 1], ![1, -1, 0, 0, 0, 0], ![-1, -1, 0, 1, 1, 0]]

/-- The same as real numbers. -/
def wit (p : Fin 4) (r : Fin 6) : ℝ := witZ p r

/-- Five times the covariances of `wit`. -/
def witCovF : Fin 4 → Fin 4 → ℤ := ![![4, -2, -2, 1], ![-2, 6, 0, -4], ![-2, 0, 2, 0], ![1, -4, 0, 4]]

/-- The same as a matrix. -/
def witCov : Matrix (Fin 4) (Fin 4) ℤ := Matrix.of witCovF

theorem wit_mean (p : Fin 4) : mean (wit p) = 0 := by
  have h : ∀ p, ∑ r, witZ p r = 0 := by decide
  have : ∑ r, wit p r = ((∑ r, witZ p r : ℤ) : ℝ) := by
    unfold wit
    push_cast
    rfl
  unfold mean
  rw [this, h]
  simp

theorem wit_cov (p q : Fin 4) : cov (wit p) (wit q) = (witCov p q : ℝ) / 5 := by
  have h : ∀ p q : Fin 4, (∑ r : Fin 6, witZ p r * witZ q r : ℤ) = witCovF p q := by decide
  have : ∑ r, wit p r * wit q r = ((∑ r, witZ p r * witZ q r : ℤ) : ℝ) := by
    unfold wit
    push_cast
    rfl
  unfold cov
  rw [wit_mean, wit_mean]
  simp only [sub_zero]
  rw [this, h]
  norm_num [witCov]

theorem wit_det (σ : Equiv.Perm (Fin 4)) : (covMat fun p => wit (σ p)).det = 4 / 125 := by
  rw [covMat_perm]
  have h : covMat wit = (1 / 5 : ℝ) • witCov.map (Int.castRingHom ℝ) := by
    ext p q
    have := wit_cov p q
    simp only [covMat, Matrix.of_apply, Matrix.smul_apply, Matrix.map_apply, smul_eq_mul]
    rw [this]
    simp
    ring
  have hd : witCov.det = 20 := by decide +kernel
  have hm := (Int.castRingHom ℝ).map_det witCov
  rw [h, Matrix.det_smul]
  rw [RingHom.mapMatrix_apply] at hm
  rw [← hm, hd]
  norm_num

theorem wit_tau : tau (wit 0) (wit 1) (wit 2) (wit 3) = 8 / 25 := by
  unfold tau
  rw [wit_cov, wit_cov, wit_cov, wit_cov]
  have h : witCov 0 2 = -2 ∧ witCov 1 3 = -4 ∧ witCov 0 3 = 1 ∧ witCov 1 2 = 0 := by decide
  obtain ⟨h1, h2, h3, h4⟩ := h
  rw [h1, h2, h3, h4]
  norm_num

theorem wit_diag : witCov 0 0 = 4 ∧ witCov 1 1 = 6 ∧ witCov 2 2 = 2 ∧ witCov 3 3 = 4 ∧ witCov 0 3 = 1 ∧ witCov 1 2 = 0 ∧ witCov 1 3 = -4 ∧
    witCov 0 2 = -2 := by decide

theorem wit_wvar : wvar (wit 0) (wit 1) (wit 2) (wit 3) = 58 / 625 := by
  have hd := wit_det 1
  have he : (fun p => wit ((1 : Equiv.Perm (Fin 4)) p)) = ![wit 0, wit 1, wit 2, wit 3] := by
    funext p
    fin_cases p <;> rfl
  rw [he] at hd
  obtain ⟨h1, h2, h3, h4, h5, h6, h7, h8⟩ := wit_diag
  unfold wvar
  simp only [hd, wit_cov, h1, h2, h3, h4, h5, h6]
  norm_num

theorem wit_wvar' : wvar (wit 1) (wit 0) (wit 2) (wit 3) = 31 / 3125 := by
  have hd := wit_det (Equiv.swap 0 1)
  have he : (fun p => wit ((Equiv.swap 0 1 : Equiv.Perm (Fin 4)) p)) = ![wit 1, wit 0, wit 2, wit 3] := by
    funext p
    fin_cases p <;> rfl
  rw [he] at hd
  obtain ⟨h1, h2, h3, h4, h5, h6, h7, h8⟩ := wit_diag
  unfold wvar
  simp only [hd, wit_cov, h1, h2, h3, h4, h7, h8]
  norm_num

theorem wit_ratio : |tau (wit 0) (wit 1) (wit 2) (wit 3) / Real.sqrt (abs (wvar (wit 0) (wit 1) (wit 2) (wit 3)))| ≤ 5 / 2 := by
  rw [wit_tau, wit_wvar, abs_of_pos (by norm_num : (0 : ℝ) < 58 / 625)]
  have h : (1 / 5 : ℝ) ≤ Real.sqrt (58 / 625) := Real.le_sqrt_of_sq_le (by norm_num)
  rw [abs_of_pos (by positivity), div_le_iff₀ (by positivity)]
  linarith

theorem wit_ratio' : 13 / 5 ≤ |tau (wit 1) (wit 0) (wit 2) (wit 3) / Real.sqrt (abs (wvar (wit 1) (wit 0) (wit 2) (wit 3)))| := by
  rw [tau_swap, wit_tau, wit_wvar', abs_of_pos (by norm_num : (0 : ℝ) < 31 / 3125)]
  have h : Real.sqrt (31 / 3125) ≤ 8 / 65 := Real.sqrt_le_iff.2 ⟨by norm_num, by norm_num⟩
  have h0 : 0 < Real.sqrt (31 / 3125 : ℝ) := Real.sqrt_pos.2 (by norm_num)
  rw [abs_div, abs_of_neg (by norm_num : -(8 / 25 : ℝ) < 0), abs_of_pos h0, le_div_iff₀ h0]
  linarith

/-- C89 is false: there are data of six rows for which the default level 0.01 accepts the tetrad difference of `i, j` and `k, l` and rejects that of
`j, i` and `k, l`, although the two differ only in sign. The normal distribution function has the two bounds: they are
`2 * Φ(-2.5) = 0.0124` and `2 * Φ(-2.6) = 0.0093`. -/
theorem c89_false (Φ : ℝ → ℝ) (hm : Monotone Φ) (h1 : 1 / 100 < 2 * Φ (-(5 / 2))) (h2 : 2 * Φ (-(13 / 5)) ≤ 1 / 100) :
    tau (wit 1) (wit 0) (wit 2) (wit 3) = -tau (wit 0) (wit 1) (wit 2) (wit 3) ∧
    vanishes Φ (1 / 100) (wit 0) (wit 1) (wit 2) (wit 3) = .ok true ∧ vanishes Φ (1 / 100) (wit 1) (wit 0) (wit 2) (wit 3) = .ok false := by
  refine ⟨tau_swap _ _ _ _, ?_, ?_⟩
  · unfold vanishes pvalue
    rw [if_neg (by norm_num), if_neg (by norm_num), if_neg (by rw [wit_wvar]; norm_num)]
    have := hm (neg_le_neg wit_ratio)
    have h : 1 / 100 < 2 * Φ (-|tau (wit 0) (wit 1) (wit 2) (wit 3) / Real.sqrt (abs (wvar (wit 0) (wit 1) (wit 2) (wit 3)))|) := by linarith
    exact congrArg Except.ok (decide_eq_true h)
  · unfold vanishes pvalue
    rw [if_neg (by norm_num), if_neg (by norm_num), if_neg (by rw [wit_wvar']; norm_num)]
    have := hm (neg_le_neg wit_ratio')
    have h : ¬ 1 / 100 < 2 * Φ (-|tau (wit 1) (wit 0) (wit 2) (wit 3) / Real.sqrt (abs (wvar (wit 1) (wit 0) (wit 2) (wit 3)))|) := by linarith
    exact congrArg Except.ok (decide_eq_false h)

/-- Determinant of the covariance matrix of two variables. -/
noncomputable def det2 (x y : Fin n → ℝ) : ℝ := cov x x * cov y y - cov x y ^ 2

/-- C89, what holds. The full statement is "the p-value does not change if the variables of one pair are exchanged"; the variance that is used is
that of the difference with the pairs `i, l` and `j, k`, whereas the tested difference has the pairs `i, j` and `k, l`. The exchange is harmless if
the product of the two determinants is the same. -/
theorem c89_partial (Φ : ℝ → ℝ) (i j k l : Fin n → ℝ) (h : det2 i l * det2 j k = det2 j l * det2 i k) :
    pvalue Φ j i k l = pvalue Φ i j k l := by
  have hd := det4 i j k l j i k l (Equiv.swap 0 1) (by funext p; fin_cases p <;> rfl)
  have hv : wvar j i k l = wvar i j k l := by
    unfold det2 at h
    unfold wvar
    simp only
    rw [hd]
    linear_combination (-((n : ℝ) + 1) / (((n : ℝ) - 1) * ((n : ℝ) - 2))) * h
  unfold pvalue
  rw [tau_swap, hv]
  simp only [neg_eq_zero, neg_div, abs_neg]

section cluster
variable {V : Type} [DecidableEq V]

theorem allE_ok {β : Type} {f : β → Except Err Bool} {g : β → Bool} {l : List β} (h : ∀ x ∈ l, f x = .ok (g x)) : allE f l = .ok (l.all g) := by
  induction l with
  | nil => rfl
  | cons x l ih =>
    unfold allE
    rw [h x List.mem_cons_self]
    simp only [bind, Except.bind]
    cases hg : g x
    · simp [hg]; rfl
    · simp [hg, ih fun y hy => h y (List.mem_cons_of_mem _ hy)]

theorem anyE_ok {β : Type} {f : β → Except Err Bool} {g : β → Bool} {l : List β} (h : ∀ x ∈ l, f x = .ok (g x)) : anyE f l = .ok (l.any g) := by
  induction l with
  | nil => rfl
  | cons x l ih =>
    unfold anyE
    rw [h x List.mem_cons_self]
    simp only [bind, Except.bind]
    cases hg : g x
    · simp [hg, ih fun y hy => h y (List.mem_cons_of_mem _ hy)]
    · simp [hg]; rfl

theorem mem_pairs {l : List V} {p : V × V} : p ∈ pairs l → p.1 ∈ l ∧ p.2 ∈ l := by
  induction l with
  | nil => intro h; cases h
  | cons x l ih =>
    intro h
    rw [pairs, List.mem_append] at h
    rcases h with h | h
    · obtain ⟨y, hy, rfl⟩ := List.mem_map.1 h
      exact ⟨List.mem_cons_self, List.mem_cons_of_mem _ hy⟩
    · exact ⟨List.mem_cons_of_mem _ (ih h).1, List.mem_cons_of_mem _ (ih h).2⟩

theorem pairs_ne {l : List V} (hl : l.Nodup) {p : V × V} : p ∈ pairs l → p.1 ≠ p.2 := by
  induction l with
  | nil => intro h; cases h
  | cons x l ih =>
    intro h
    rw [pairs, List.mem_append] at h
    rcases h with h | h
    · obtain ⟨y, hy, rfl⟩ := List.mem_map.1 h
      intro he
      have he' : x = y := he
      exact (List.nodup_cons.1 hl).1 (he' ▸ hy)
    · exact ih (List.nodup_cons.1 hl).2 h

theorem pairs_mem {l : List V} {x y : V} (hx : x ∈ l) (hy : y ∈ l) (hne : x ≠ y) : (x, y) ∈ pairs l ∨ (y, x) ∈ pairs l := by
  induction l with
  | nil => cases hx
  | cons z l ih =>
    simp only [pairs, List.mem_append, List.mem_map, Prod.mk.injEq]
    rcases List.mem_cons.1 hx with rfl | hx'
    · rcases List.mem_cons.1 hy with rfl | hy'
      · exact absurd rfl hne
      · exact Or.inl (Or.inl ⟨y, hy', rfl, rfl⟩)
    · rcases List.mem_cons.1 hy with rfl | hy'
      · exact Or.inr (Or.inl ⟨x, hx', rfl, rfl⟩)
      · exact (ih hx' hy').imp Or.inr Or.inr

/-- A test of tetrad differences that is symmetric within the pairs. -/
structure Symm (van : V → V → V → V → Bool) : Prop where
  left : ∀ i j k l, van j i k l = van i j k l
  right : ∀ i j k l, van i j l k = van i j k l

theorem all_pairs {l : List V} (hl : l.Nodup) {f : V → V → Bool} (hf : ∀ x y, f y x = f x y) :
    (pairs l).all (fun p => f p.1 p.2) = true ↔ ∀ x ∈ l, ∀ y ∈ l, x ≠ y → f x y = true := by
  rw [List.all_eq_true]
  constructor
  · intro h x hx y hy hne
    rcases pairs_mem hx hy hne with h' | h'
    · exact h _ h'
    · rw [← hf x y]
      exact h _ h'
  · intro h p hp
    exact h _ (mem_pairs hp).1 _ (mem_pairs hp).2 (pairs_ne hl hp)

theorem any_pairs {l : List V} (hl : l.Nodup) {f : V → V → Bool} :
    (pairs l).any (fun p => f p.1 p.2) = true → ∃ x ∈ l, ∃ y ∈ l, x ≠ y ∧ f x y = true := by
  rw [List.any_eq_true]
  rintro ⟨p, hp, h⟩
  exact ⟨_, (mem_pairs hp).1, _, (mem_pairs hp).2, pairs_ne hl hp, h⟩

/-- C90. With a test that is symmetric within the pairs, `CheckCausalCluster` returns, whatever the order in which the set is read; it returns
`True` exactly if at least two variables are outside of the cluster and the difference vanishes for any two variables in the cluster and any two
outside. -/
theorem c90_check_partial {van : V → V → V → V → Bool} (hs : Symm van) {order : List V → List V} (ho : ∀ l, (order l).Perm l)
    {cols C : List V} (hc : cols.Nodup) (hC : C.Nodup) :
    ∃ b, checkCausalCluster (fun i j k l => .ok (van i j k l)) order cols C = .ok b ∧ (b = true ↔
      2 ≤ (cols.filter fun v => v ∉ C).length ∧ ∀ i ∈ C, ∀ j ∈ C, i ≠ j → ∀ k ∈ cols, k ∉ C → ∀ l ∈ cols, l ∉ C → k ≠ l → van i j k l = true) := by
  unfold checkCausalCluster
  simp only
  have hp := ho (cols.filter fun v => v ∉ C)
  have hnd : (order (cols.filter fun v => v ∉ C)).Nodup := hp.nodup_iff.2 (hc.filter _)
  have hmem : ∀ v, v ∈ order (cols.filter fun v => v ∉ C) ↔ v ∈ cols ∧ v ∉ C := fun v => by
    rw [hp.mem_iff, List.mem_filter, decide_eq_true_eq]
  by_cases hlen : (order (cols.filter fun v => v ∉ C)).length < 2
  · rw [if_pos hlen]
    refine ⟨false, rfl, ?_⟩
    rw [hp.length_eq] at hlen
    simp only [Bool.false_eq_true, false_iff, not_and_or]
    exact Or.inl (by omega)
  · rw [if_neg hlen]
    have hin : ∀ s : V × V, allE (fun t : V × V => (.ok (van s.1 s.2 t.1 t.2) : Except Err Bool)) (pairs (order (cols.filter fun v => v ∉ C))) =
        .ok ((pairs (order (cols.filter fun v => v ∉ C))).all fun t => van s.1 s.2 t.1 t.2) := fun s => allE_ok fun _ _ => rfl
    refine ⟨_, allE_ok fun s _ => hin s, ?_⟩
    rw [hp.length_eq] at hlen
    rw [all_pairs hC (f := fun i j => (pairs (order (cols.filter fun v => v ∉ C))).all fun t => van i j t.1 t.2)
      (fun x y => by simp only [hs.left])]
    constructor
    · intro h
      refine ⟨by omega, fun i hi j hj hij k hk hkC l hl hlC hkl => ?_⟩
      exact (all_pairs hnd (f := fun k l => van i j k l) (fun x y => hs.right _ _ _ _)).1 (h i hi j hj hij) k ((hmem k).2 ⟨hk, hkC⟩) l
        ((hmem l).2 ⟨hl, hlC⟩) hkl
    · rintro ⟨-, h⟩ i hi j hj hij
      refine (all_pairs hnd (f := fun k l => van i j k l) (fun x y => hs.right _ _ _ _)).2 fun k hk l hl hkl => ?_
      have h1 := (hmem k).1 hk
      have h2 := (hmem l).1 hl
      exact h i hi j hj hij k h1.1 h1.2 l h2.1 h2.2 hkl

/-- C90. With any test `JudgePureCluster` returns for a cluster of at least two; it returns `True` only if some difference that separates the first
two variables vanishes, and it returns `False` only if for any two variables outside one of the two differences does not. -/
theorem c90_pure_partial (van : V → V → V → V → Bool) {order : List V → List V} (ho : ∀ l, (order l).Perm l) {cols : List V} (hc : cols.Nodup)
    (i j : V) (C : List V) :
    ∃ b, judgePureCluster (fun i j k l => .ok (van i j k l)) order cols (i :: j :: C) = .ok b ∧
      (b = true → ∃ k ∈ cols, k ∉ i :: j :: C ∧ ∃ l ∈ cols, l ∉ i :: j :: C ∧ k ≠ l ∧ van i k j l = true) ∧
      (b = false → ∀ k ∈ cols, k ∉ i :: j :: C → ∀ l ∈ cols, l ∉ i :: j :: C → k ≠ l → van i k j l = false ∨ van i l j k = false) := by
  unfold judgePureCluster
  have hp := ho (cols.filter fun v => v ∉ i :: j :: C)
  have hnd : (order (cols.filter fun v => v ∉ i :: j :: C)).Nodup := hp.nodup_iff.2 (hc.filter _)
  have hmem : ∀ v, v ∈ order (cols.filter fun v => v ∉ i :: j :: C) ↔ v ∈ cols ∧ v ∉ i :: j :: C := fun v => by
    rw [hp.mem_iff, List.mem_filter, decide_eq_true_eq]
  refine ⟨_, anyE_ok (g := fun t => van i t.1 j t.2) fun _ _ => rfl, ?_, ?_⟩
  · intro h
    obtain ⟨k, hk, l, hl, hkl, h⟩ := any_pairs hnd (f := fun k l => van i k j l) h
    have h1 := (hmem k).1 hk
    have h2 := (hmem l).1 hl
    exact ⟨k, h1.1, h1.2, l, h2.1, h2.2, hkl, h⟩
  · intro h k hk hkC l hl hlC hkl
    rw [List.any_eq_false] at h
    rcases pairs_mem ((hmem k).2 ⟨hk, hkC⟩) ((hmem l).2 ⟨hl, hlC⟩) hkl with h' | h'
    · exact Or.inl (by simpa using h _ h')
    · exact Or.inr (by simpa using h _ h')

/-- C90 is false for the test of the code: whether `CheckCausalCluster` takes two of the four variables of `wit` for a cluster depends on the order
in which Python reads the set of the other two, which for strings changes from run to run. -/
theorem c90_false (Φ : ℝ → ℝ) (hm : Monotone Φ) (h1 : 1 / 100 < 2 * Φ (-(5 / 2))) (h2 : 2 * Φ (-(13 / 5)) ≤ 1 / 100) :
    checkCausalCluster (fun i j k l => vanishes Φ (1 / 100) (wit i) (wit j) (wit k) (wit l)) id [0, 1, 2, 3] [0, 1] = .ok true ∧
    checkCausalCluster (fun i j k l => vanishes Φ (1 / 100) (wit i) (wit j) (wit k) (wit l)) List.reverse [0, 1, 2, 3] [0, 1] = .ok false := by
  obtain ⟨-, ht, hf⟩ := c89_false Φ hm h1 h2
  have hf' : vanishes Φ (1 / 100) (wit 0) (wit 1) (wit 3) (wit 2) = .ok false := by
    have := (c88_symm Φ (wit 1) (wit 0) (wit 2) (wit 3)).2
    unfold vanishes at hf ⊢
    rw [this]
    exact hf
  have hfil : ([0, 1, 2, 3] : List (Fin 4)).filter (fun v => v ∉ ([0, 1] : List (Fin 4))) = [2, 3] := by decide
  constructor
  · unfold checkCausalCluster
    rw [hfil]
    simp only [id, pairs, List.length_cons, List.length_nil, List.map, List.append_nil, allE, ht]
    rfl
  · unfold checkCausalCluster
    rw [hfil]
    simp only [List.reverse_cons, List.reverse_nil, List.nil_append, List.cons_append, pairs, List.length_cons, List.length_nil, List.map,
      List.append_nil, allE, hf']
    rfl

end cluster

section examples

/-- A distribution function with the bounds of `c89_false`. -/
noncomputable def exPhi (x : ℝ) : ℝ := if x ≤ -(51 / 20) then 0 else 1 / 2

theorem exPhi_mono : Monotone exPhi := by
  intro x y h
  unfold exPhi
  split_ifs <;> linarith

example : vanishes exPhi (1 / 100) (wit 0) (wit 1) (wit 2) (wit 3) ≠ vanishes exPhi (1 / 100) (wit 1) (wit 0) (wit 2) (wit 3) := by
  obtain ⟨-, h1, h2⟩ := c89_false exPhi exPhi_mono (by unfold exPhi; norm_num) (by unfold exPhi; norm_num)
  rw [h1, h2]
  intro h
  cases h

/-- The covariance with a constant column is zero. -/
theorem cov_const (c : ℝ) (y : Fin n → ℝ) : cov (fun _ => c) y = 0 := by
  rcases Nat.eq_zero_or_pos n with hn | hn
  · subst hn; simp [cov]
  · have hm : mean (fun _ : Fin n => c) = c := by
      have : (n : ℝ) ≠ 0 := by positivity
      simp [mean, this]
    simp [cov, hm]

/-- C89, constant columns. If the first column is constant, the tetrad difference is exactly zero, and the test says that it does not vanish: the
variance is zero as well, the ratio is 0/0, and a comparison with NaN is false. -/
theorem c89_constant (Φ : ℝ → ℝ) (alpha c : ℝ) (hn : 3 ≤ n) (j k l : Fin n → ℝ) :
    tau (fun _ => c) j k l = 0 ∧ vanishes Φ alpha (fun _ => c) j k l = .ok false := by
  have ht : tau (fun _ => c) j k l = 0 := by simp [tau, cov_const]
  have hd : (covMat ![fun _ => c, j, k, l]).det = 0 := by
    refine Matrix.det_eq_zero_of_row_eq_zero 0 fun q => ?_
    simp [covMat, cov_const]
  have hw : wvar (fun _ => c) j k l = 0 := by simp [wvar, cov_const, hd]
  refine ⟨ht, ?_⟩
  unfold vanishes pvalue
  rw [if_neg (by omega), if_neg (by omega), if_pos hw, if_pos ht]
  rfl

example : vanishes (fun _ => 1) (1 / 100) (fun _ : Fin 4 => 7) ![1, -1, 0, 0] ![0, 0, 1, -1] ![1, 2, 3, 4] = .ok false :=
  (c89_constant _ _ 7 (by norm_num) _ _ _).2

/-- C88, few rows. With one or two rows the test raises, whatever the data. -/
theorem c88_few (Φ : ℝ → ℝ) (alpha : ℝ) (h1 : 1 ≤ n) (h2 : n ≤ 2) (i j k l : Fin n → ℝ) :
    vanishes Φ alpha i j k l = .error .exception := by
  unfold vanishes pvalue
  rw [if_neg (by omega), if_pos h2]
  rfl

example : vanishes (fun _ => 1) (1 / 100) ![1, 2] ![3, 4] ![5, 7] ![1, 1] = .error .exception := c88_few _ _ (by norm_num) (by norm_num) _ _ _ _

example : checkCausalCluster (fun i j k l => vanishes exPhi (1 / 100) (wit i) (wit j) (wit k) (wit l)) id [0, 1, 2, 3] [0, 1] = .ok true :=
  (c90_false exPhi exPhi_mono (by unfold exPhi; norm_num) (by unfold exPhi; norm_num)).1

example : ∃ p, pvalue exPhi (wit 0) (wit 1) (wit 2) (wit 3) = .ok p ∧ ∀ q, p = some q → 0 ≤ q ∧ q ≤ 1 :=
  c88_range exPhi (fun x => by unfold exPhi; split_ifs <;> norm_num) (fun x _ => by unfold exPhi; split_ifs <;> norm_num) (by norm_num) _ _ _ _

/-- Two uncorrelated variables, their sum and their difference. -/
def exK : Fin 4 → ℝ := ![1, -1, 0, 0]
/-- The second variable. -/
def exL : Fin 4 → ℝ := ![0, 0, 1, -1]
/-- The sum. -/
def exI : Fin 4 → ℝ := ![1, -1, 1, -1]
/-- The difference. -/
def exJ : Fin 4 → ℝ := ![1, -1, -1, 1]

example : pvalue exPhi exJ exI exK exL = pvalue exPhi exI exJ exK exL ∧ tau exI exJ exK exL = -8 / 9 := by
  constructor
  · apply c89_partial
    simp [det2, cov, mean, exI, exJ, exK, exL, Fin.sum_univ_succ]
    norm_num
  · simp [tau, cov, mean, exI, exJ, exK, exL, Fin.sum_univ_succ]
    norm_num

/-- A symmetric test: the difference vanishes iff the two variables outside are larger than those in the cluster. -/
def exVan (i j k l : Nat) : Bool := decide (max i j < min k l)

theorem exVan_symm : Symm exVan where
  left i j k l := by unfold exVan; rw [max_comm]
  right i j k l := by unfold exVan; rw [min_comm]

example : checkCausalCluster (fun i j k l => .ok (exVan i j k l)) List.reverse [0, 1, 2, 3, 4] [1, 0] = .ok true := by decide

example : ∃ b, checkCausalCluster (fun i j k l => .ok (exVan i j k l)) List.reverse [0, 1, 2, 3, 4] [0, 2] = .ok b ∧ b ≠ true := by
  obtain ⟨b, h1, h2⟩ := c90_check_partial exVan_symm (order := List.reverse) (fun l => List.reverse_perm l) (cols := [0, 1, 2, 3, 4]) (C := [0, 2])
    (by decide) (by decide)
  refine ⟨b, h1, fun hb => ?_⟩
  have := (h2.1 hb).2 0 (by decide) 2 (by decide) (by decide) 1 (by decide) (by decide) 3 (by decide) (by decide) (by decide)
  revert this
  decide

end examples

end Cdmir.Tetrad
