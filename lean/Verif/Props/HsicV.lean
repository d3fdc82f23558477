import Verif.Props.HsicU
import Mathlib.LinearAlgebra.Matrix.PosDef
import Mathlib.LinearAlgebra.Matrix.Charpoly.Basic
import Mathlib.Analysis.Matrix.Order
import Mathlib.Order.Lattice.Nat

/-! C145 (the biased HSIC statistic and distance correlation) and C146 (p-values from shuffles). -/

namespace Cdmir.HsicTest

open Finset
open scoped MatrixOrder

noncomputable section

variable {m p q : Nat}

/-- The kernel matrix that belongs to features. -/
def gram (phi : Matrix (Fin m) (Fin p) ℝ) : Mat m := phi * phi.transpose

theorem center_gram (hm : 0 < m) (phi : Matrix (Fin m) (Fin p) ℝ) (i j : Fin m) : centerKernelMatrix (gram phi) i j = ∑ k, centred phi i k * centred phi j k := by
  have hm' : (m : ℝ) ≠ 0 := by exact_mod_cast hm.ne'
  have hc : ∀ j, colSums (gram phi) j = ∑ k, (∑ t, phi t k) * phi j k := by
    intro j
    unfold colSums gram
    simp only [Matrix.mul_apply, Matrix.transpose_apply]
    rw [sum_comm]
    exact sum_congr rfl fun k _ => (sum_mul _ _ _).symm
  have hv : vecSum (colSums (gram phi)) = ∑ k, (∑ t, phi t k) * ∑ t, phi t k := by
    unfold vecSum
    rw [sum_congr rfl fun j _ => hc j, sum_comm]
    exact sum_congr rfl fun k _ => (mul_sum _ _ _).symm
  change gram phi i j - (colSums (gram phi) j + colSums (gram phi) i) / m + vecSum (colSums (gram phi)) / (m : ℝ) ^ 2 = _
  rw [hc, hc, hv]
  unfold gram centred
  simp only [Matrix.mul_apply, Matrix.transpose_apply, Matrix.of_apply]
  rw [← sum_add_distrib, sum_div, sum_div, ← sum_sub_distrib, ← sum_add_distrib]
  refine sum_congr rfl fun k _ => ?_
  field_simp
  ring

theorem four_sum (c : Fin m → Fin p → ℝ) (d : Fin m → Fin q → ℝ) :
    ∑ i, ∑ j, (∑ k, c i k * c j k) * (∑ l, d i l * d j l) = ∑ k, ∑ l, (∑ i, c i k * d i l) ^ 2 := by
  have e1 : ∀ i j, (∑ k, c i k * c j k) * (∑ l, d i l * d j l) = ∑ k, ∑ l, (c i k * d i l) * (c j k * d j l) := by
    intro i j
    rw [sum_mul_sum]
    exact sum_congr rfl fun k _ => sum_congr rfl fun l _ => by ring
  have e2 : ∀ k l, (∑ i, c i k * d i l) ^ 2 = ∑ i, ∑ j, (c i k * d i l) * (c j k * d j l) := by
    intro k l
    rw [sq, sum_mul_sum]
  simp only [e1, e2]
  calc ∑ i, ∑ j, ∑ k, ∑ l, (c i k * d i l) * (c j k * d j l) = ∑ i, ∑ k, ∑ j, ∑ l, (c i k * d i l) * (c j k * d j l) := sum_congr rfl fun i _ => sum_comm
    _ = ∑ k, ∑ i, ∑ j, ∑ l, (c i k * d i l) * (c j k * d j l) := sum_comm
    _ = ∑ k, ∑ i, ∑ l, ∑ j, (c i k * d i l) * (c j k * d j l) := sum_congr rfl fun k _ => sum_congr rfl fun i _ => sum_comm
    _ = ∑ k, ∑ l, ∑ i, ∑ j, (c i k * d i l) * (c j k * d j l) := sum_congr rfl fun k _ => sum_comm

/-- C145: for kernels that come from features, the statistic of the matrices is `m²` times that of the features: both versions measure the
same. It is zero exactly if every feature of one is uncorrelated with every feature of the other. -/
theorem c145_features (hm : 0 < m) (phix : Matrix (Fin m) (Fin p) ℝ) (phiy : Matrix (Fin m) (Fin q) ℝ) :
    ∃ v, vStatRff phix phiy = some v ∧ vStat (gram phix) (gram phiy) = m ^ 2 * v ∧ 0 ≤ v ∧
      (v = 0 ↔ ∀ k l, ∑ i, (phix i k - (∑ t, phix t k) / m) * (phiy i l - (∑ t, phiy t l) / m) = 0) := by
  have hm' : (m : ℝ) ≠ 0 := by exact_mod_cast hm.ne'
  have hs : ∀ k l, ((centred phix).transpose * centred phiy) k l = ∑ i, centred phix i k * centred phiy i l := by
    intro k l
    simp only [Matrix.mul_apply, Matrix.transpose_apply]
  refine ⟨_, if_neg hm.ne', ?_, sum_nonneg fun k _ => sum_nonneg fun l _ => sq_nonneg _, ?_⟩
  · unfold vStat
    simp only [center_gram hm]
    refine (four_sum (fun i k => centred phix i k) (fun i l => centred phiy i l)).trans ?_
    simp only [hs, div_pow, ← sum_div]
    field_simp
  · rw [sum_eq_zero_iff_of_nonneg fun k _ => sum_nonneg fun l _ => sq_nonneg _]
    constructor
    · intro h k l
      have h1 := h k (mem_univ _)
      rw [sum_eq_zero_iff_of_nonneg fun l _ => sq_nonneg _] at h1
      have h2 := h1 l (mem_univ _)
      rw [sq_eq_zero_iff, div_eq_zero_iff, or_iff_left hm', hs] at h2
      exact h2
    · intro h k _
      exact sum_eq_zero fun l _ => by
        rw [hs]
        have := h k l
        unfold centred
        simp only [Matrix.of_apply]
        rw [this]
        simp

/-- C145: for positive semidefinite kernels the statistic is not negative. -/
theorem c145_nonneg {Kx Ky : Mat m} (hx : Kx.PosSemidef) (hy : Ky.PosSemidef) : 0 ≤ vStat Kx Ky := by
  rcases Nat.eq_zero_or_pos m with rfl | hm
  · simp [vStat]
  have key : ∀ K : Mat m, K.PosSemidef → ∃ B : Matrix (Fin m) (Fin m) ℝ, K = gram B := by
    intro K hK
    obtain ⟨B, hB, -, e⟩ := CFC.exists_sqrt_of_isSelfAdjoint_of_quasispectrumRestricts (a := K) hK.isHermitian
      (QuasispectrumRestricts.nnreal_of_nonneg hK.nonneg)
    refine ⟨B, ?_⟩
    have hB' : B.transpose = B := by
      have := hB.star_eq
      rwa [Matrix.star_eq_conjTranspose, Matrix.conjTranspose_eq_transpose_of_trivial] at this
    unfold gram
    rw [hB', e]
  obtain ⟨B, rfl⟩ := key Kx hx
  obtain ⟨C, rfl⟩ := key Ky hy
  obtain ⟨v, -, h, h0, -⟩ := c145_features hm B C
  rw [h]
  positivity

theorem v_cauchy (Kx Ky : Mat m) : vStat Kx Ky ^ 2 ≤ vStat Kx Kx * vStat Ky Ky := by
  have := sum_mul_sq_le_sq_mul_sq (univ : Finset (Fin m × Fin m)) (fun p => centerKernelMatrix Kx p.1 p.2) (fun p => centerKernelMatrix Ky p.1 p.2)
  simp only [← univ_product_univ, sum_product] at this
  unfold vStat
  simpa only [sq] using this

theorem v_self (K : Mat m) : 0 ≤ vStat K K := sum_nonneg fun _ _ => sum_nonneg fun _ _ => mul_self_nonneg _

theorem overRoot_le {a b c r : ℝ} (hb : 0 ≤ b) (hc : 0 ≤ c) (h : a ^ 2 ≤ b * c) (e : overRoot a (b * c) = some r) :
    |r| ≤ 1 ∧ (0 ≤ a → 0 ≤ r) := by
  unfold overRoot quot at e
  rw [if_neg (not_lt.2 (mul_nonneg hb hc))] at e
  split at e
  · cases e
  · rename_i h0
    cases e
    have hp : 0 < Real.sqrt (b * c) := lt_of_le_of_ne (Real.sqrt_nonneg _) (Ne.symm h0)
    refine ⟨?_, fun ha => by positivity⟩
    rw [abs_div, abs_of_pos hp, div_le_one hp]
    exact Real.abs_le_sqrt h

/-- C145: the distance correlation lies in [0, 1] for positive semidefinite kernels, and is 1 for a kernel and a positive multiple of it; it is a number
exactly if neither centred kernel vanishes. -/
theorem c145_dcor {Kx Ky : Mat m} (hx : Kx.PosSemidef) (hy : Ky.PosSemidef) :
    (∀ r, dCor false Kx Ky = some r → 0 ≤ r ∧ r ≤ 1) ∧ ((dCor false Kx Ky).isSome ↔ centerKernelMatrix Kx ≠ 0 ∧ centerKernelMatrix Ky ≠ 0) ∧
      (∀ c : ℝ, 0 < c → centerKernelMatrix Kx ≠ 0 → dCor false Kx (c • Kx) = some 1) := by
  have hz : ∀ K : Mat m, vStat K K = 0 ↔ centerKernelMatrix K = 0 := by
    intro K
    have h0 : ∀ i, 0 ≤ ∑ j, centerKernelMatrix K i j * centerKernelMatrix K i j := fun i => sum_nonneg fun j _ => mul_self_nonneg _
    constructor
    · intro h
      ext i j
      have h1 := (sum_eq_zero_iff_of_nonneg (fun i _ => h0 i)).1 h i (mem_univ i)
      have h2 := (sum_eq_zero_iff_of_nonneg (f := fun j => centerKernelMatrix K i j * centerKernelMatrix K i j)
        (fun j _ => mul_self_nonneg _)).1 h1 j (mem_univ j)
      exact mul_self_eq_zero.1 h2
    · intro h
      unfold vStat
      rw [h]
      simp
  refine ⟨?_, ?_, ?_⟩
  · intro r hr
    have h := overRoot_le (v_self Kx) (v_self Ky) (v_cauchy Kx Ky) hr
    exact ⟨h.2 (c145_nonneg hx hy), (abs_le.1 h.1).2⟩
  · change (overRoot _ _).isSome ↔ _
    unfold overRoot quot
    rw [if_neg (not_lt.2 (mul_nonneg (v_self Kx) (v_self Ky)))]
    have : Real.sqrt (vStat Kx Kx * vStat Ky Ky) = 0 ↔ ¬ (centerKernelMatrix Kx ≠ 0 ∧ centerKernelMatrix Ky ≠ 0) := by
      rw [Real.sqrt_eq_zero (mul_nonneg (v_self Kx) (v_self Ky)), mul_eq_zero, hz, hz]
      tauto
    split
    · rename_i h
      simpa using fun a => by rw [this] at h; tauto
    · rename_i h
      rw [this, not_not] at h
      simpa using h
  · intro c hc h
    have hcen : ∀ i j, centerKernelMatrix (c • Kx) i j = c * centerKernelMatrix Kx i j := by
      intro i j
      have h1 : ∀ j, colSums (c • Kx) j = c * colSums Kx j := fun j => by
        unfold colSums
        simp only [Matrix.smul_apply, smul_eq_mul, mul_sum]
      have h2 : vecSum (colSums (c • Kx)) = c * vecSum (colSums Kx) := by
        unfold vecSum
        simp only [h1, mul_sum]
      change (c • Kx) i j - (colSums (c • Kx) j + colSums (c • Kx) i) / m + vecSum (colSums (c • Kx)) / (m : ℝ) ^ 2 = c * (Kx i j - (colSums Kx j + colSums Kx i) / m + vecSum (colSums Kx) / (m : ℝ) ^ 2)
      rw [h1, h1, h2, Matrix.smul_apply, smul_eq_mul]
      ring
    have e1 : vStat Kx (c • Kx) = c * vStat Kx Kx := by
      unfold vStat
      simp only [hcen, mul_sum]
      exact sum_congr rfl fun i _ => sum_congr rfl fun j _ => by ring
    have e2 : vStat (c • Kx) (c • Kx) = c ^ 2 * vStat Kx Kx := by
      unfold vStat
      simp only [hcen, mul_sum]
      exact sum_congr rfl fun i _ => sum_congr rfl fun j _ => by ring
    have hpos : 0 < vStat Kx Kx := lt_of_le_of_ne (v_self Kx) fun h' => h ((hz Kx).1 h'.symm)
    change overRoot _ _ = _
    rw [e1, e2, show vStat Kx Kx * (c ^ 2 * vStat Kx Kx) = (c * vStat Kx Kx) ^ 2 by ring]
    unfold overRoot quot
    have hcp : 0 < c * vStat Kx Kx := mul_pos hc hpos
    rw [if_neg (not_lt.2 (sq_nonneg _)), Real.sqrt_sq hcp.le, if_neg hcp.ne', div_self hcp.ne']

/-- C145: the distance correlation of features is that of their kernels. -/
theorem c145_dcor_features (hm : 0 < m) (phix : Matrix (Fin m) (Fin p) ℝ) (phiy : Matrix (Fin m) (Fin q) ℝ) :
    dCorRff phix phiy = dCor false (gram phix) (gram phiy) := by
  have hm' : (m : ℝ) ≠ 0 := by exact_mod_cast hm.ne'
  obtain ⟨a, ha, ha', a0, -⟩ := c145_features hm phix phiy
  obtain ⟨b, hb, hb', b0, -⟩ := c145_features hm phix phix
  obtain ⟨c, hc, hc', c0, -⟩ := c145_features hm phiy phiy
  unfold dCorRff
  simp only [ha, hb, hc, Option.bind_eq_bind, Option.bind_some]
  change _ = overRoot _ _
  rw [ha', hb', hc', show (m : ℝ) ^ 2 * b * (m ^ 2 * c) = (m ^ 2) ^ 2 * (b * c) by ring]
  unfold overRoot quot
  have hbc : 0 ≤ b * c := mul_nonneg b0 c0
  rw [if_neg (not_lt.2 hbc), if_neg (not_lt.2 (by positivity)), Real.sqrt_mul (show (0 : ℝ) ≤ (m ^ 2) ^ 2 by positivity) (b * c),
    Real.sqrt_sq (by positivity)]
  by_cases h : Real.sqrt (b * c) = 0
  · simp [h]
  · rw [if_neg h, if_neg (mul_ne_zero (pow_ne_zero 2 hm') h), mul_div_mul_left _ _ (pow_ne_zero 2 hm')]

/-- C145: the two ways to get the null distribution of the spectral test use the same numbers, up to the factor `m - 1`: with as many features as
rows, the centred kernel has the characteristic polynomial of `m - 1` times the covariance of the features. -/
theorem c145_spectrum (hm : 2 ≤ m) (phi : Matrix (Fin m) (Fin m) ℝ) : (centerKernelMatrix (gram phi)).charpoly = (((m : ℝ) - 1) • cov phi).charpoly := by
  have h2 : (2 : ℝ) ≤ m := by exact_mod_cast hm
  have e1 : centerKernelMatrix (gram phi) = centred phi * (centred phi).transpose := by
    ext i j
    rw [center_gram (by omega), Matrix.mul_apply]
    rfl
  have e2 : ((m : ℝ) - 1) • cov phi = (centred phi).transpose * centred phi := by
    unfold cov
    rw [smul_smul, mul_inv_cancel₀ (by linarith), one_smul]
  rw [e1, e2, Matrix.charpoly_mul_comm]

/-- C146: a p-value from shuffles is a fraction with denominator `1 + N`, above 0 and at most 1. -/
theorem c146_range (null : List (Option ℝ)) (stat : Option ℝ) : 1 / (1 + (null.length : ℝ)) ≤ shareAbove null stat ∧ shareAbove null stat ≤ 1 ∧
    ∃ k : ℕ, 1 ≤ k ∧ shareAbove null stat = k / (1 + (null.length : ℝ)) := by
  have h0 : (0 : ℝ) < 1 + null.length := by positivity
  have hle : (null.countP fun x => gt x stat : ℕ) ≤ null.length := List.countP_le_length
  unfold shareAbove
  refine ⟨?_, ?_, 1 + (null.countP fun x => gt x stat), by omega, by push_cast; rfl⟩
  · gcongr
    simp
  · rw [div_le_one h0]
    have : ((null.countP fun x => gt x stat : ℕ) : ℝ) ≤ null.length := by exact_mod_cast hle
    linarith

/-- The p-value that belongs to the `i`-th of `N + 1` values, if the others are the shuffled ones. -/
def pOfRank {N : Nat} (v : Fin (N + 1) → ℝ) (i : Fin (N + 1)) : ℝ := shareAbove (((List.finRange (N + 1)).filter (· ≠ i)).map fun j => some (v j)) (some (v i))

theorem pOfRank_eq {N : Nat} (v : Fin (N + 1) → ℝ) (i : Fin (N + 1)) : pOfRank v i = (1 + (univ.filter fun j => v i < v j).card) / (N + 1) := by
  have hnd : (List.finRange (N + 1)).Nodup := List.nodup_finRange _
  have h1 : ((List.finRange (N + 1)).filter (· ≠ i)).length = N := by
    have : ((List.finRange (N + 1)).filter (· ≠ i)) = (List.finRange (N + 1)).erase i := by
      rw [hnd.erase_eq_filter i]
      exact List.filter_congr fun x _ => by simp [bne, beq_eq_decide]
    rw [this, List.length_erase_of_mem (List.mem_finRange i), List.length_finRange]
    rfl
  have h2 : ((((List.finRange (N + 1)).filter (· ≠ i)).map fun j => some (v j)).countP fun x => gt x (some (v i))) = (univ.filter fun j => v i < v j).card := by
    rw [List.countP_map, List.countP_filter, List.countP_eq_length_filter, ← List.toFinset_card_of_nodup (hnd.filter _)]
    congr 1
    ext j
    simp only [List.mem_toFinset, List.mem_filter, List.mem_finRange, true_and, mem_filter, mem_univ, gt, Function.comp, Bool.and_eq_true, decide_eq_true_eq]
    constructor
    · exact fun h => h.1
    · exact fun h => ⟨h, fun hh => by subst hh; exact lt_irrefl _ h⟩
  unfold pOfRank shareAbove
  rw [h2, List.length_map, h1]
  ring

/-- Ranks in a linear order without ties run through 0, …, N. -/
theorem rank_bij {β : Type} [LinearOrder β] {N : Nat} {w : Fin (N + 1) → β} (hw : Function.Injective w) (t : Nat) (ht : t ≤ N + 1) :
    (univ.filter fun i => 1 + (univ.filter fun j => w i < w j).card ≤ t).card = t := by
  have hlt : ∀ i, (univ.filter fun j => w i < w j).card < N + 1 := by
    intro i
    calc (univ.filter fun j => w i < w j).card < (univ : Finset (Fin (N + 1))).card :=
          card_lt_card (ssubset_univ_iff.2 fun h => by
            have : i ∈ univ.filter fun j => w i < w j := by rw [h]; exact mem_univ i
            simp at this)
      _ = N + 1 := by simp
  have hinj : Function.Injective fun i => (⟨_, hlt i⟩ : Fin (N + 1)) := by
    intro a b hab
    simp only [Fin.mk.injEq] at hab
    by_contra hne
    have key : ∀ a b, w a < w b → (univ.filter fun j => w b < w j).card < (univ.filter fun j => w a < w j).card := by
      intro a b h
      apply card_lt_card
      refine ⟨fun j hj => ?_, fun hs => ?_⟩
      · simp only [mem_filter, mem_univ, true_and] at hj ⊢
        exact h.trans hj
      · have : b ∈ univ.filter fun j => w b < w j := hs (by simpa using h)
        simp at this
    rcases lt_trichotomy (w a) (w b) with h | h | h
    · have := key a b h; omega
    · exact hne (hw h)
    · have := key b a h; omega
  have hbij := Finite.injective_iff_bijective.1 hinj
  let e := Equiv.ofBijective _ hbij
  have : (univ.filter fun i => 1 + (univ.filter fun j => w i < w j).card ≤ t).card = (univ.filter fun k : Fin (N + 1) => (k : ℕ) < t).card := by
    apply card_equiv e
    intro i
    simp only [mem_filter, mem_univ, true_and]
    change _ ↔ (univ.filter fun j => w i < w j).card < t
    omega
  rw [this, Fin.card_filter_val_lt, min_eq_right ht]

/-- C146: without ties the p-value is exact: of the `N + 1` values, each in its turn the statistic, exactly `⌊α (N + 1)⌋` have a p-value at most `α`.
With ties there can only be more. -/
theorem c146_exact {N : Nat} (v : Fin (N + 1) → ℝ) {α : ℝ} (h0 : 0 ≤ α) (h1 : α ≤ 1) :
    ⌊α * (N + 1)⌋₊ ≤ (univ.filter fun i => pOfRank v i ≤ α).card ∧ (Function.Injective v → (univ.filter fun i => pOfRank v i ≤ α).card = ⌊α * (N + 1)⌋₊) := by
  have hN : (0 : ℝ) < N + 1 := by positivity
  have ht : ⌊α * (N + 1)⌋₊ ≤ N + 1 := by
    have : α * (N + 1) ≤ (N + 1 : ℕ) := by push_cast; nlinarith
    exact Nat.floor_le_of_le this
  have hiff : ∀ i, pOfRank v i ≤ α ↔ 1 + (univ.filter fun j => v i < v j).card ≤ ⌊α * (N + 1)⌋₊ := by
    intro i
    rw [pOfRank_eq, div_le_iff₀ hN, Nat.le_floor_iff (by positivity)]
    push_cast
    rfl
  simp only [hiff]
  refine ⟨?_, fun hv => rank_bij hv _ ht⟩
  let w : Fin (N + 1) → ℝ ×ₗ Fin (N + 1) := fun i => toLex (v i, i)
  have hw : Function.Injective w := fun a b h => (Prod.mk.inj (toLex_inj.1 h)).2
  rw [← rank_bij hw _ ht]
  have hle : ∀ i, (univ.filter fun j => v i < v j).card ≤ (univ.filter fun j => w i < w j).card := by
    intro i
    apply card_le_card
    intro j hj
    simp only [mem_filter, mem_univ, true_and] at hj ⊢
    exact Prod.Lex.toLex_lt_toLex.2 (.inl hj)
  rw [rank_bij hw _ ht]
  conv_lhs => rw [← rank_bij hw _ ht]
  apply card_le_card
  intro i hi
  simp only [mem_filter, mem_univ, true_and] at hi ⊢
  have := hle i
  omega

/-- C146: expected, a variable is not found dependent on a constant. False: for a constant column every shuffle gives the same value, none is
greater, and the p-value is the least possible, whatever the other variable is. With the default of 1000 shuffles it is below 0.001. -/
theorem c146_false (hm : 4 ≤ m) {Ky : Mat m} (hy : Ky.IsSymm) (perms : List (Equiv.Perm (Fin m))) (unbiased : Bool) :
    permutationTest unbiased perms (Matrix.of fun _ _ => 1) Ky = 1 / (1 + (perms.length : ℝ)) := by
  have hm' : (m : ℝ) ≠ 0 := (den_ne hm).1
  have hcen : ∀ i j : Fin m, centerKernelMatrix (Matrix.of fun _ _ => (1 : ℝ)) i j = 0 := by
    intro i j
    change (1 : ℝ) - (colSums (Matrix.of fun _ _ => 1) j + colSums (Matrix.of fun _ _ => 1) i) / m + vecSum (colSums (Matrix.of fun (_ : Fin m) (_ : Fin m) => (1 : ℝ))) / (m : ℝ) ^ 2 = 0
    simp [colSums, vecSum]
    field_simp
    ring
  have hcnt : ((withShuffles unbiased perms false (Matrix.of fun _ _ => 1) Ky).null.countP
      fun x => gt x (withShuffles unbiased perms false (Matrix.of fun _ _ => 1) Ky).stat) = 0 := by
    rw [List.countP_eq_zero]
    cases unbiased with
    | true =>
      have hst : (withShuffles true perms false (Matrix.of fun _ _ => 1) Ky).stat = some 0 := c144_constant hm hy 1
      intro x hx
      rw [hst]
      simp only [withShuffles, Bool.false_eq_true, if_false, if_true, List.mem_map] at hx
      obtain ⟨pp, -, rfl⟩ := hx
      have hys : (shuffle pp (zeroDiag Ky)).IsSymm := by
        ext i j
        exact (zeroDiag_symm hy).apply _ _
      have : (uStat (zeroDiag (Matrix.of fun (_ : Fin m) (_ : Fin m) => (1 : ℝ))) (shuffle pp (zeroDiag Ky))).1 = some 0 := by
        have := c144_constant hm hys 1
        rw [← this]
        have hzz : ∀ M : Mat m, zeroDiag (zeroDiag M) = zeroDiag M := fun M => by
          ext i j
          by_cases h : i = j <;> simp [zeroDiag, h]
        simp only [uStat, hzz]
      change ¬ gt (uStat (zeroDiag (Matrix.of fun (_ : Fin m) (_ : Fin m) => (1 : ℝ))) (shuffle pp (zeroDiag Ky))).1 (some 0) = true
      rw [this]
      simp [gt]
    | false =>
      intro x hx
      simp only [withShuffles, Bool.false_eq_true, if_false, List.mem_map] at hx ⊢
      obtain ⟨pp, -, rfl⟩ := hx
      simp [vStat, hcen, gt]
  unfold permutationTest shareAbove
  dsimp only
  rw [hcnt]
  have hl : (withShuffles unbiased perms false (Matrix.of fun _ _ => 1) Ky).null.length = perms.length := by
    simp [withShuffles]
  rw [hl]
  simp

/-- C146: with random features the permutation test with its default `unbiased=True` always raises; the spectral test with its default does not. -/
theorem c146_returns (unbiased : Bool) (perms : List (Equiv.Perm (Fin m))) (eig : (k : Nat) → Matrix (Fin k) (Fin k) ℝ → List ℝ) (draws : List (Nat → Nat → ℝ))
    (phix : Matrix (Fin m) (Fin p) ℝ) (phiy : Matrix (Fin m) (Fin q) ℝ) :
    ((∃ r, permutationTestRff unbiased perms phix phiy = .ok r) ↔ unbiased = false) ∧
      ((∃ r, spectralTestRff eig unbiased draws phix phiy = .ok r) ↔ unbiased = false) := by
  cases unbiased
  · exact ⟨⟨fun _ => rfl, fun _ => ⟨_, rfl⟩⟩, ⟨fun _ => rfl, fun _ => ⟨_, rfl⟩⟩⟩
  · refine ⟨⟨fun ⟨r, h⟩ => ?_, fun h => by cases h⟩, ⟨fun ⟨r, h⟩ => ?_, fun h => by cases h⟩⟩
    · cases h
    · cases h

/-- C146: the spectral test does not depend on the scale of either kernel. -/
theorem c146_scale (eig : Mat m → List ℝ) (heig : ∀ (c : ℝ) (K : Mat m), 0 < c → eig (c • K) = (eig K).map (c * ·)) {c : ℝ} (hc : 0 < c)
    (draws : List (Nat → Nat → ℝ)) (Kx Ky : Mat m) : spectralTest eig false draws (c • Kx) Ky = spectralTest eig false draws Kx Ky := by
  have hcen : centerKernelMatrix (c • Kx) = c • centerKernelMatrix Kx := by
    ext i j
    have h1 : ∀ j, colSums (c • Kx) j = c * colSums Kx j := fun j => by
      unfold colSums
      simp only [Matrix.smul_apply, smul_eq_mul, mul_sum]
    have h2 : vecSum (colSums (c • Kx)) = c * vecSum (colSums Kx) := by
      unfold vecSum
      simp only [h1, mul_sum]
    change (c • Kx) i j - (colSums (c • Kx) j + colSums (c • Kx) i) / m + vecSum (colSums (c • Kx)) / (m : ℝ) ^ 2 = c * (Kx i j - (colSums Kx j + colSums Kx i) / m + vecSum (colSums Kx) / (m : ℝ) ^ 2)
    rw [h1, h1, h2, Matrix.smul_apply, smul_eq_mul]
    ring
  have hv : vStat (c • Kx) Ky = c * vStat Kx Ky := by
    unfold vStat
    rw [hcen]
    simp only [Matrix.smul_apply, smul_eq_mul, mul_sum, mul_assoc]
  have hn : ∀ z ly (lx : List ℝ), nullSample false (lx.map (c * ·)) ly z = c * nullSample false lx ly z := by
    intro z ly lx
    unfold nullSample
    rw [List.zipIdx_map, List.map_map, ← List.sum_map_mul_left]
    congr 1
    apply List.map_congr_left
    intro a _
    simp only [Function.comp, Prod.map, id]
    ring
  unfold spectralTest
  simp only [withShuffles, Bool.false_eq_true, if_false, Option.map_some]
  rw [hcen, heig c _ hc, hv]
  unfold shareAbove
  simp only [List.countP_map, List.length_map]
  congr 3
  apply List.countP_congr
  intro z _
  simp only [Function.comp, gt, decide_eq_true_eq, hn]
  rw [show (m : ℝ) * (c * vStat Kx Ky) = c * (m * vStat Kx Ky) by ring]
  exact ⟨fun h => lt_of_mul_lt_mul_left h hc.le, fun h => mul_lt_mul_of_pos_left h hc⟩

/-! ### Concrete cases -/

/-- Features of four rows. -/
def exPhi : Matrix (Fin 4) (Fin 1) ℝ := !![0; 1; 2; 3]

example := c145_features (by norm_num) exPhi exPhi
example : (gram exPhi).PosSemidef := by
  unfold gram
  have := Matrix.posSemidef_self_mul_conjTranspose exPhi
  rwa [Matrix.conjTranspose_eq_transpose_of_trivial] at this
example : centerKernelMatrix (gram exPhi) ≠ 0 := by
  intro h
  have := congrFun (congrFun h 0) 0
  rw [center_gram (by norm_num)] at this
  simp [centred, exPhi, Fin.sum_univ_four] at this
  norm_num at this
example := c146_exact (N := 3) ![1, 4, 2, 8] (α := 1 / 2) (by norm_num) (by norm_num)
example : Function.Injective (![1, 4, 2, 8] : Fin 4 → ℝ) := by
  intro a b
  fin_cases a <;> fin_cases b <;> norm_num
/-- With ties all four are at most 1/4. -/
example : (univ.filter fun i => pOfRank (fun _ : Fin 4 => 0) i ≤ 1 / 4).card = 4 := by
  have : ∀ i, pOfRank (fun _ : Fin 4 => 0) i ≤ 1 / 4 := fun i => by
    rw [pOfRank_eq]
    norm_num
  rw [filter_true_of_mem fun i _ => this i]
  rfl
example := c146_false (le_refl 4) exK_symm (List.replicate 1000 (Equiv.swap 0 1)) true
/-- Eigenvalue lists that scale: the list of the diagonal. -/
example : ∀ (c : ℝ) (K : Mat 3), 0 < c → (List.ofFn fun i => (c • K) i i) = (List.ofFn fun i => K i i).map (c * ·) := by
  intro c K _
  simp [List.ofFn_succ]

end

end Cdmir.HsicTest
