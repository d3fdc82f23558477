import Verif.Lemmas.KernelTest
import Mathlib.Analysis.Matrix.PosDef

/-! C82, C83: the unconditional kernel test of independence (`functional/kci.py` and `kernel_based.py`). -/

namespace Cdmir.KTest
open BigOperators

variable {n d e : Nat}

theorem mean_affine (hn : n ≠ 0) (x : Fin n → ℝ) (a b : ℝ) : mean (fun i => a * x i + b) = a * mean x + b := by
  have : (n : ℝ) ≠ 0 := by exact_mod_cast hn
  unfold mean
  rw [Finset.sum_add_distrib, ← Finset.mul_sum, Finset.sum_const, Finset.card_univ, Fintype.card_fin, nsmul_eq_mul]
  field_simp

theorem devs_affine (hn : n ≠ 0) (x : Fin n → ℝ) (a b : ℝ) : devs (fun i => a * x i + b) = a ^ 2 * devs x := by
  unfold devs
  rw [mean_affine hn, Finset.mul_sum]
  exact Finset.sum_congr rfl fun i _ => by ring

theorem devs_nonneg (x : Fin n → ℝ) : 0 ≤ devs x := Finset.sum_nonneg fun _ _ => sq_nonneg _

/-- Standardising forgets shift and scale up to the sign. -/
theorem standardise_affine (X : Data n d) {a : Fin d → ℝ} (ha : ∀ k, a k ≠ 0) (b : Fin d → ℝ) (i : Fin n) (k : Fin d) :
    standardise (fun i k => a k * X i k + b k) i k = a k / |a k| * standardise X i k := by
  have hn : n ≠ 0 := by rintro rfl; exact i.elim0
  unfold standardise zscore
  rw [devs_affine hn, mean_affine hn]
  by_cases h : n ≤ 1 ∨ devs (fun i => X i k) = 0
  · rw [if_pos h, if_pos (by rcases h with h | h <;> simp [h])]
    simp
  · rw [if_neg h, if_neg (by
      rintro (h' | h')
      · exact h (Or.inl h')
      · rcases mul_eq_zero.1 h' with h' | h'
        · exact ha k (pow_eq_zero_iff two_ne_zero |>.1 h')
        · exact h (Or.inr h'))]
    simp only [Option.getD_some]
    rw [mul_div_assoc, Real.sqrt_mul (sq_nonneg _), Real.sqrt_sq_eq_abs]
    have h1 : |a k| ≠ 0 := abs_ne_zero.2 (ha k)
    have h2 : a k * X i k + b k - (a k * mean (fun i => X i k) + b k) = a k * (X i k - mean fun i => X i k) := by ring
    rw [h2, mul_div_mul_comm]

theorem sqDist_affine (X : Data n d) {a : Fin d → ℝ} (ha : ∀ k, a k ≠ 0) (b : Fin d → ℝ) :
    sqDist (standardise fun i k => a k * X i k + b k) = sqDist (standardise X) := by
  funext i j
  unfold sqDist
  refine Finset.sum_congr rfl fun k _ => ?_
  rw [standardise_affine X ha b, standardise_affine X ha b, ← mul_sub, mul_pow, div_pow, sq_abs, div_self (pow_ne_zero 2 (ha k)), one_mul]

theorem mean_perm (x : Fin n → ℝ) (σ : Equiv.Perm (Fin n)) : mean (fun i => x (σ i)) = mean x := by
  unfold mean
  rw [Equiv.sum_comp σ x]

theorem devs_perm (x : Fin n → ℝ) (σ : Equiv.Perm (Fin n)) : devs (fun i => x (σ i)) = devs x := by
  unfold devs
  rw [mean_perm, ← Equiv.sum_comp σ fun i => (x i - mean x) ^ 2]

theorem standardise_perm (X : Data n d) (σ : Equiv.Perm (Fin n)) (i : Fin n) (k : Fin d) :
    standardise (fun i k => X (σ i) k) i k = standardise X (σ i) k := by
  unfold standardise zscore
  rw [devs_perm fun i => X i k, mean_perm fun i => X i k]

theorem devs_eq_zero {x : Fin n → ℝ} : devs x = 0 ↔ ∀ i j, x i = x j := by
  unfold devs
  rw [Finset.sum_eq_zero_iff_of_nonneg fun _ _ => sq_nonneg _]
  constructor
  · intro h i j
    have h1 := pow_eq_zero_iff two_ne_zero |>.1 (h i (Finset.mem_univ i))
    have h2 := pow_eq_zero_iff two_ne_zero |>.1 (h j (Finset.mem_univ j))
    linarith
  · intro h i _
    have hn : (n : ℝ) ≠ 0 := by
      have : n ≠ 0 := by rintro rfl; exact i.elim0
      exact_mod_cast this
    have : mean x = x i := by
      unfold mean
      rw [Finset.sum_congr rfl fun j _ => h j i, Finset.sum_const, Finset.card_univ, Fintype.card_fin, nsmul_eq_mul]
      field_simp
    rw [this]
    ring

theorem standardise_inj (X : Data n d) (i j : Fin n) : standardise X i = standardise X j ↔ X i = X j := by
  have key : ∀ k, standardise X i k = standardise X j k ↔ X i k = X j k := by
    intro k
    unfold standardise zscore
    by_cases h : n ≤ 1 ∨ devs (fun i => X i k) = 0
    · rw [if_pos h, if_pos h]
      simp only [Option.getD_none, true_iff]
      rcases h with h | h
      · have : i = j := by ext; omega
        rw [this]
      · exact devs_eq_zero.1 h i j
    · rw [if_neg h, if_neg h]
      simp only [Option.getD_some]
      rw [not_or] at h
      have h1 : 0 < devs fun i => X i k := lt_of_le_of_ne (devs_nonneg _) (Ne.symm h.2)
      have h2 : (1 : ℝ) < n := by exact_mod_cast (by omega : 1 < n)
      have h3 : 0 < Real.sqrt (devs (fun i => X i k) / ((n : ℝ) - 1)) := Real.sqrt_pos.2 (div_pos h1 (by linarith))
      rw [div_left_inj' h3.ne']
      constructor <;> intro h <;> linarith
  exact ⟨fun h => funext fun k => (key k).1 (congrFun h k), fun h => funext fun k => (key k).2 (congrFun h k)⟩

theorem gaussianWidth_psd {w : ℝ} (hw : 0 ≤ w) (X : Data n d) : (gaussianWidth w X).PosSemidef := by
  have h := gauss_psd X (w := w / 2) (by positivity)
  have : gaussianWidth w X = Matrix.of fun i j => Real.exp (-(w / 2 * sqDist X i j)) := by
    ext i j
    simp only [gaussianWidth, Matrix.of_apply]
    congr 1
    ring
  rwa [this]

theorem gaussianKernel_eq (X : Data n d) : gaussianKernel X = gaussianWidth 1 X := by
  ext i j
  simp [gaussianKernel, gaussianWidth]

theorem gaussianWidth_symm (w : ℝ) (X : Data n d) (i j : Fin n) : gaussianWidth w X i j = gaussianWidth w X j i := by
  simp only [gaussianWidth, sqDist_comm X i j]

/-- The two ways of centring agree. -/
theorem centerKernelMatrix_eq {K : Matrix (Fin n) (Fin n) ℝ} (hs : ∀ i j, K i j = K j i) : centerKernelMatrix K = center K := by
  by_cases hn : n = 0
  · subst hn
    ext i
    exact i.elim0
  · rw [center, hMat_eq]
    exact (c38_center_partial K hn hs).1

theorem ukci_eq (cdf : ℝ → ℝ → ℝ → ℝ) (wx wy : ℝ) (X : Data n d) (Y : Data n e) : ukciTest cdf wx wy X Y =
    (gammaPvalue cdf (center (gaussianWidth wx (standardise X))) (center (gaussianWidth wy (standardise Y)))
      (hsicStat (center (gaussianWidth wx (standardise X))) (center (gaussianWidth wy (standardise Y)))),
     hsicStat (center (gaussianWidth wx (standardise X))) (center (gaussianWidth wy (standardise Y)))) := by
  simp only [ukciTest, centerKernelMatrix_eq (gaussianWidth_symm _ _)]

/-- C83. The two implementations of the unconditional kernel test, `functional/kci.py` and the one of `kernel_based.py` with its default width 1,
give the same p-value and the same statistic for all data. -/
theorem c83_agree (cdf : ℝ → ℝ → ℝ → ℝ) (X : Data n d) (Y : Data n e) : ukciTest cdf 1 1 X Y = kciTest cdf X Y := by
  rw [ukci_eq]
  simp only [kciTest, gaussianKernel_eq]

/-- C82. The test is symmetric. -/
theorem c82_symm (cdf : ℝ → ℝ → ℝ → ℝ) (wx wy : ℝ) (X : Data n d) (Y : Data n e) :
    kciTest cdf X Y = kciTest cdf Y X ∧ ukciTest cdf wx wy X Y = ukciTest cdf wy wx Y X := by
  have h1 : ∀ K L : Matrix (Fin n) (Fin n) ℝ, hsicStat K L = hsicStat L K := fun K L =>
    Finset.sum_congr rfl fun i _ => Finset.sum_congr rfl fun j _ => mul_comm _ _
  have h2 : ∀ (K L : Matrix (Fin n) (Fin n) ℝ) s, gammaPvalue cdf K L s = gammaPvalue cdf L K s := by
    intro K L s
    have hm : meanApprox K L = meanApprox L K := by unfold meanApprox; rw [mul_comm K.trace]
    have hv : varApprox K L = varApprox L K := by unfold varApprox; ring
    simp only [gammaPvalue, hm, hv]
  have h3 : ∀ wx wy, ukciTest cdf wx wy X Y = ukciTest cdf wy wx Y X := by
    intro wx wy
    rw [ukci_eq, ukci_eq, h1, h2]
  exact ⟨by rw [← c83_agree, ← c83_agree, h3], h3 wx wy⟩

/-- C82. The test does not change if columns are shifted, scaled or reflected. -/
theorem c82_affine (cdf : ℝ → ℝ → ℝ → ℝ) (wx wy : ℝ) (X : Data n d) (Y : Data n e) {a : Fin d → ℝ} (ha : ∀ k, a k ≠ 0) (b : Fin d → ℝ)
    {a' : Fin e → ℝ} (ha' : ∀ k, a' k ≠ 0) (b' : Fin e → ℝ) :
    kciTest cdf (fun i k => a k * X i k + b k : Data n d) (fun i k => a' k * Y i k + b' k : Data n e) = kciTest cdf X Y ∧
    ukciTest cdf wx wy (fun i k => a k * X i k + b k : Data n d) (fun i k => a' k * Y i k + b' k : Data n e) = ukciTest cdf wx wy X Y := by
  have h1 : ∀ w, gaussianWidth w (standardise fun i k => a k * X i k + b k) = gaussianWidth w (standardise X) := by
    intro w
    unfold gaussianWidth
    rw [sqDist_affine X ha b]
  have h2 : ∀ w, gaussianWidth w (standardise fun i k => a' k * Y i k + b' k) = gaussianWidth w (standardise Y) := by
    intro w
    unfold gaussianWidth
    rw [sqDist_affine Y ha' b']
  have h3 : ∀ wx wy, ukciTest cdf wx wy (fun i k => a k * X i k + b k : Data n d) (fun i k => a' k * Y i k + b' k : Data n e) =
      ukciTest cdf wx wy X Y := by
    intro wx wy
    rw [ukci_eq, ukci_eq, h1, h2]
  exact ⟨by rw [← c83_agree, ← c83_agree, h3], h3 wx wy⟩

/-- C82. The order of the rows does not matter. -/
theorem c82_perm (cdf : ℝ → ℝ → ℝ → ℝ) (wx wy : ℝ) (X : Data n d) (Y : Data n e) (σ : Equiv.Perm (Fin n)) :
    kciTest cdf (fun i k => X (σ i) k : Data n d) (fun i k => Y (σ i) k : Data n e) = kciTest cdf X Y ∧
    ukciTest cdf wx wy (fun i k => X (σ i) k : Data n d) (fun i k => Y (σ i) k : Data n e) = ukciTest cdf wx wy X Y := by
  have h1 : ∀ {d : Nat} (X : Data n d) w, gaussianWidth w (standardise fun i k => X (σ i) k) =
      (gaussianWidth w (standardise X)).submatrix σ σ := by
    intro d X w
    ext i j
    simp only [gaussianWidth, Matrix.submatrix_apply, sqDist, standardise_perm]
  have hstat : ∀ K L : Matrix (Fin n) (Fin n) ℝ, hsicStat (K.submatrix σ σ) (L.submatrix σ σ) = hsicStat K L := fun K L =>
    sum_perm (fun i j => K i j * L i j) σ
  have htr : ∀ K : Matrix (Fin n) (Fin n) ℝ, (K.submatrix σ σ).trace = K.trace := fun K => Equiv.sum_comp σ fun i => K i i
  have hsq : ∀ K : Matrix (Fin n) (Fin n) ℝ, ∑ i, ∑ j, K.submatrix σ σ i j ^ 2 = ∑ i, ∑ j, K i j ^ 2 := fun K =>
    sum_perm (fun i j => K i j ^ 2) σ
  have h3 : ∀ wx wy, ukciTest cdf wx wy (fun i k => X (σ i) k : Data n d) (fun i k => Y (σ i) k : Data n e) = ukciTest cdf wx wy X Y := by
    intro wx wy
    rw [ukci_eq, ukci_eq, h1, h1, center_perm, center_perm, hstat]
    have hm : ∀ K L : Matrix (Fin n) (Fin n) ℝ, meanApprox (K.submatrix σ σ) (L.submatrix σ σ) = meanApprox K L := fun K L => by
      unfold meanApprox; rw [htr, htr]
    have hv : ∀ K L : Matrix (Fin n) (Fin n) ℝ, varApprox (K.submatrix σ σ) (L.submatrix σ σ) = varApprox K L := fun K L => by
      unfold varApprox; rw [hsq, hsq]
    simp only [gammaPvalue, hm, hv]
  exact ⟨by rw [← c83_agree, ← c83_agree, h3], h3 wx wy⟩

theorem sq_sum_eq_zero {K : Matrix (Fin n) (Fin n) ℝ} : ∑ i, ∑ j, K i j ^ 2 = 0 ↔ K = 0 := by
  constructor
  · intro h
    ext i j
    have h1 := (Finset.sum_eq_zero_iff_of_nonneg (s := Finset.univ) (f := fun i => ∑ j, K i j ^ 2)
      fun i _ => Finset.sum_nonneg fun j _ => sq_nonneg _).1 h i (Finset.mem_univ i)
    have h2 := (Finset.sum_eq_zero_iff_of_nonneg (s := Finset.univ) (f := fun j => K i j ^ 2) fun j _ => sq_nonneg _).1 h1 j (Finset.mem_univ j)
    exact pow_eq_zero_iff two_ne_zero |>.1 h2
  · rintro rfl
    simp

theorem gauss_center_zero (hn : n ≠ 0) {w : ℝ} (hw : 0 < w) (X : Data n d) :
    center (gaussianWidth w (standardise X)) = 0 ↔ ∀ i j, X i = X j := by
  rw [center_zero hn (gaussianWidth_symm _ _) (fun i => by simp [gaussianWidth, sqDist_self])]
  refine forall_congr' fun i => forall_congr' fun j => ?_
  rw [← standardise_inj X, ← sqDist_eq_zero]
  simp only [gaussianWidth, Real.exp_eq_one_iff]
  constructor
  · intro h
    have : sqDist (standardise X) i j * w = 0 := by linarith
    rcases mul_eq_zero.1 this with h | h
    · exact h
    · exact absurd h hw.ne'
  · intro h
    rw [h]
    ring

theorem gammaPvalue_none (cdf : ℝ → ℝ → ℝ → ℝ) (hn : n ≠ 0) {K L : Matrix (Fin n) (Fin n) ℝ} (hK : K.PosSemidef) (hL : L.PosSemidef) (s : ℝ) :
    gammaPvalue cdf K L s = none ↔ K = 0 ∨ L = 0 := by
  have hn' : (n : ℝ) ≠ 0 := by exact_mod_cast hn
  have hv : varApprox K L = 0 ↔ K = 0 ∨ L = 0 := by
    unfold varApprox
    rw [div_eq_zero_iff, mul_eq_zero, mul_eq_zero, sq_sum_eq_zero, sq_sum_eq_zero]
    simp [hn']
  have hm : meanApprox K L = 0 ↔ K = 0 ∨ L = 0 := by
    unfold meanApprox
    rw [div_eq_zero_iff, mul_eq_zero, hK.trace_eq_zero_iff, hL.trace_eq_zero_iff]
    simp [hn']
  simp only [gammaPvalue, hv, hm, or_self]
  split <;> simp_all

/-- C82. The p-value is NaN exactly if all rows of one of the two samples are equal. -/
theorem c82_nan (cdf : ℝ → ℝ → ℝ → ℝ) (hn : n ≠ 0) {wx wy : ℝ} (hx : 0 < wx) (hy : 0 < wy) (X : Data n d) (Y : Data n e) :
    ((kciTest cdf X Y).1 = none ↔ (∀ i j, X i = X j) ∨ ∀ i j, Y i = Y j) ∧
    ((ukciTest cdf wx wy X Y).1 = none ↔ (∀ i j, X i = X j) ∨ ∀ i j, Y i = Y j) := by
  have h3 : ∀ wx wy, 0 < wx → 0 < wy → ((ukciTest cdf wx wy X Y).1 = none ↔ (∀ i j, X i = X j) ∨ ∀ i j, Y i = Y j) := by
    intro wx wy hx hy
    rw [ukci_eq]
    simp only
    rw [gammaPvalue_none cdf hn (center_psd (gaussianWidth_psd hx.le _)) (center_psd (gaussianWidth_psd hy.le _)),
      gauss_center_zero hn hx, gauss_center_zero hn hy]
  exact ⟨by rw [← c83_agree]; exact h3 1 1 one_pos one_pos, h3 wx wy hx hy⟩

/-- C82. The statistic is not negative, and every p-value that is a number lies between 0 and 1 and comes from a gamma distribution with positive
parameters. -/
theorem c82_range (cdf : ℝ → ℝ → ℝ → ℝ) (hcdf : ∀ x k t, 0 < k → 0 < t → 0 ≤ cdf x k t ∧ cdf x k t ≤ 1) {wx wy : ℝ} (hx : 0 ≤ wx) (hy : 0 ≤ wy)
    (X : Data n d) (Y : Data n e) :
    (0 ≤ (kciTest cdf X Y).2 ∧ ∀ p, (kciTest cdf X Y).1 = some p → 0 ≤ p ∧ p ≤ 1) ∧
    (0 ≤ (ukciTest cdf wx wy X Y).2 ∧ ∀ p, (ukciTest cdf wx wy X Y).1 = some p → 0 ≤ p ∧ p ≤ 1) := by
  have h3 : ∀ wx wy, 0 ≤ wx → 0 ≤ wy → 0 ≤ (ukciTest cdf wx wy X Y).2 ∧ ∀ p, (ukciTest cdf wx wy X Y).1 = some p → 0 ≤ p ∧ p ≤ 1 := by
    intro wx wy hx hy
    have hK := center_psd (gaussianWidth_psd hx (standardise X))
    have hL := center_psd (gaussianWidth_psd hy (standardise Y))
    rw [ukci_eq]
    refine ⟨stat_nonneg hK hL, fun p hp => ?_⟩
    generalize center (gaussianWidth wx (standardise X)) = K at *
    generalize center (gaussianWidth wy (standardise Y)) = L at *
    simp only [gammaPvalue] at hp
    split at hp
    · cases hp
    · rename_i h
      rw [not_or] at h
      have hm : 0 ≤ meanApprox K L := div_nonneg (mul_nonneg hK.trace_nonneg hL.trace_nonneg) (Nat.cast_nonneg n)
      have hv : 0 ≤ varApprox K L := by
        unfold varApprox
        have a : 0 ≤ ∑ i, ∑ j, K i j ^ 2 := Finset.sum_nonneg fun i _ => Finset.sum_nonneg fun j _ => sq_nonneg _
        have b : 0 ≤ ∑ i, ∑ j, L i j ^ 2 := Finset.sum_nonneg fun i _ => Finset.sum_nonneg fun j _ => sq_nonneg _
        positivity
      have hm' := lt_of_le_of_ne hm (Ne.symm h.2)
      have hv' := lt_of_le_of_ne hv (Ne.symm h.1)
      obtain ⟨a, b⟩ := hcdf (hsicStat K L) (meanApprox K L ^ 2 / varApprox K L) (varApprox K L / meanApprox K L) (by positivity) (by positivity)
      cases hp
      constructor <;> linarith
  exact ⟨by rw [← c83_agree]; exact h3 1 1 zero_le_one zero_le_one, h3 wx wy hx hy⟩

theorem gammaPvalue_some {cdf : ℝ → ℝ → ℝ → ℝ} {K L : Matrix (Fin n) (Fin n) ℝ} (hK : K.PosSemidef) (hL : L.PosSemidef) {s p : ℝ}
    (hp : gammaPvalue cdf K L s = some p) : ∃ k t : ℝ, 0 < k ∧ 0 < t ∧ k * t = K.trace * L.trace / n ∧
      k * t ^ 2 = 2 * (∑ i, ∑ j, K i j ^ 2) * (∑ i, ∑ j, L i j ^ 2) / (n : ℝ) ^ 2 ∧ p = 1 - cdf s k t := by
  simp only [gammaPvalue] at hp
  split at hp
  · cases hp
  rename_i h
  rw [not_or] at h
  have hm : 0 ≤ meanApprox K L := div_nonneg (mul_nonneg hK.trace_nonneg hL.trace_nonneg) (Nat.cast_nonneg n)
  have hv : 0 ≤ varApprox K L := by
    unfold varApprox
    have a : 0 ≤ ∑ i, ∑ j, K i j ^ 2 := Finset.sum_nonneg fun i _ => Finset.sum_nonneg fun j _ => sq_nonneg _
    have b : 0 ≤ ∑ i, ∑ j, L i j ^ 2 := Finset.sum_nonneg fun i _ => Finset.sum_nonneg fun j _ => sq_nonneg _
    positivity
  have hm' := lt_of_le_of_ne hm (Ne.symm h.2)
  have hv' := lt_of_le_of_ne hv (Ne.symm h.1)
  cases hp
  refine ⟨meanApprox K L ^ 2 / varApprox K L, varApprox K L / meanApprox K L, by positivity, by positivity, ?_, ?_, rfl⟩
  · have : meanApprox K L = K.trace * L.trace / n := rfl
    rw [← this]
    field_simp
  · have : varApprox K L = 2 * (∑ i, ∑ j, K i j ^ 2) * (∑ i, ∑ j, L i j ^ 2) / (n : ℝ) ^ 2 := rfl
    rw [← this]
    field_simp

/-- C82. A p-value that is a number is the upper tail, at the statistic, of the gamma distribution whose mean and variance are those of the
approximation: `tr(Kx) tr(Ky) / n` and `2 |Kx|² |Ky|² / n²` for the centred kernel matrices of the standardised samples. -/
theorem c82_tail (cdf : ℝ → ℝ → ℝ → ℝ) (X : Data n d) (Y : Data n e) {p : ℝ} (hp : (kciTest cdf X Y).1 = some p) :
    ∃ K L : Matrix (Fin n) (Fin n) ℝ, ∃ k t : ℝ, 0 < k ∧ 0 < t ∧
      K = Spec.centring ℝ n * Matrix.of (fun i j => Real.exp (-(∑ c, (standardise X i c - standardise X j c) ^ 2) / 2)) * Spec.centring ℝ n ∧
      L = Spec.centring ℝ n * Matrix.of (fun i j => Real.exp (-(∑ c, (standardise Y i c - standardise Y j c) ^ 2) / 2)) * Spec.centring ℝ n ∧
      k * t = K.trace * L.trace / n ∧ k * t ^ 2 = 2 * (∑ i, ∑ j, K i j ^ 2) * (∑ i, ∑ j, L i j ^ 2) / (n : ℝ) ^ 2 ∧
      (kciTest cdf X Y).2 = ∑ i, ∑ j, K i j * L i j ∧ p = 1 - cdf (kciTest cdf X Y).2 k t := by
  have hg : ∀ {d : Nat} (X : Data n d), center (gaussianKernel (standardise X)) =
      Spec.centring ℝ n * Matrix.of (fun i j => Real.exp (-(∑ c, (standardise X i c - standardise X j c) ^ 2) / 2)) * Spec.centring ℝ n := by
    intro d X
    unfold center
    rw [hMat_eq]
    congr 2
    ext i j
    simp only [gaussianKernel, sqDist, Matrix.of_apply]
    congr 1
    ring
  have hK := center_psd (gaussianWidth_psd zero_le_one (standardise X))
  have hL := center_psd (gaussianWidth_psd zero_le_one (standardise Y))
  rw [← gaussianKernel_eq] at hK hL
  obtain ⟨k, t, hk, ht, h1, h2, h3⟩ := gammaPvalue_some hK hL hp
  exact ⟨_, _, k, t, hk, ht, hg X, hg Y, h1, h2, rfl, h3⟩

section examples

/-- Three rows, one column. -/
def exX : Data 3 1 := ![![0], ![1], ![3]]

/-- Three rows, two columns. -/
def exY : Data 3 2 := ![![0, 1], ![0, 0], ![5, 1]]

example (cdf : ℝ → ℝ → ℝ → ℝ) : ukciTest cdf 1 1 exX exY = kciTest cdf exX exY := c83_agree cdf exX exY

example (cdf : ℝ → ℝ → ℝ → ℝ) : kciTest cdf exX exY = kciTest cdf exY exX := (c82_symm cdf 1 1 exX exY).1

example (cdf : ℝ → ℝ → ℝ → ℝ) : kciTest cdf (fun i k => -2 * exX i k + 7 : Data 3 1) (fun i k => 3 * exY i k + 1 : Data 3 2) = kciTest cdf exX exY :=
  (c82_affine cdf 1 1 exX exY (a := fun _ => -2) (fun _ => by norm_num) (fun _ => 7) (a' := fun _ => 3) (fun _ => by norm_num) (fun _ => 1)).1

example (cdf : ℝ → ℝ → ℝ → ℝ) : kciTest cdf (fun i k => exX (Equiv.swap 0 2 i) k : Data 3 1) (fun i k => exY (Equiv.swap 0 2 i) k : Data 3 2) =
    kciTest cdf exX exY := (c82_perm cdf 1 1 exX exY (Equiv.swap 0 2)).1

example (cdf : ℝ → ℝ → ℝ → ℝ) : (kciTest cdf exX exY).1 ≠ none := by
  rw [Ne, (c82_nan cdf (by decide) one_pos one_pos exX exY).1, not_or]
  constructor
  · intro h
    have := congrFun (h 0 1) 0
    norm_num [exX] at this
  · intro h
    have := congrFun (h 0 1) 1
    norm_num [exY] at this

example (cdf : ℝ → ℝ → ℝ → ℝ) : (kciTest cdf exX (fun _ _ => 4 : Data 3 1)).1 = none :=
  (c82_nan cdf (by decide) one_pos one_pos exX _).1.2 (Or.inr fun _ _ => rfl)

example : 0 ≤ (kciTest (fun _ _ _ => 1 / 2) exX exY).2 ∧ ∀ p, (kciTest (fun _ _ _ => 1 / 2) exX exY).1 = some p → 0 ≤ p ∧ p ≤ 1 :=
  (c82_range _ (fun _ _ _ _ _ => by norm_num) zero_le_one zero_le_one exX exY).1

example (cdf : ℝ → ℝ → ℝ → ℝ) : ∃ p k t, (kciTest cdf exX exY).1 = some p ∧ 0 < k ∧ 0 < t ∧ p = 1 - cdf (kciTest cdf exX exY).2 k t := by
  have h : (kciTest cdf exX exY).1 ≠ none := by
    rw [Ne, (c82_nan cdf (by decide) one_pos one_pos exX exY).1, not_or]
    constructor
    · intro h
      have := congrFun (h 0 1) 0
      norm_num [exX] at this
    · intro h
      have := congrFun (h 0 1) 1
      norm_num [exY] at this
  obtain ⟨p, hp⟩ := Option.ne_none_iff_exists'.1 h
  obtain ⟨_, _, k, t, hk, ht, _, _, _, _, _, h⟩ := c82_tail cdf exX exY hp
  exact ⟨p, k, t, hp, hk, ht, h⟩

end examples

end Cdmir.KTest
