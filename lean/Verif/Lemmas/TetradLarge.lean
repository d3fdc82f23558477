import Verif.Props.Tetrad
import Mathlib.LinearAlgebra.Matrix.SchurComplement
import Mathlib.LinearAlgebra.Matrix.PosDef
import Mathlib.Analysis.InnerProductSpace.PiL2
import Mathlib.Analysis.Matrix.PosDef
import Mathlib.Analysis.Matrix.Order
import Mathlib.Algebra.Order.Star.Real

/-! The test of a tetrad difference for many rows, and samples with a given covariance matrix. -/

namespace Cdmir.Tetrad

open Matrix
open scoped MatrixOrder

/-- The determinant of a positive semidefinite matrix of two rows does not become smaller if another such matrix is added. -/
theorem det2_mono {N X : Matrix (Fin 2) (Fin 2) ℝ} (hN : N.PosSemidef) (hX : X.PosSemidef) : N.det ≤ (N + X).det := by
  have h1 := hN.det_nonneg
  have h2 := hX.det_nonneg
  have n0 : 0 ≤ N 0 0 := hN.diag_nonneg
  have n1 : 0 ≤ N 1 1 := hN.diag_nonneg
  have x0 : 0 ≤ X 0 0 := hX.diag_nonneg
  have x1 : 0 ≤ X 1 1 := hX.diag_nonneg
  have sN : N 1 0 = N 0 1 := by simpa using hN.isHermitian.apply 0 1
  have sX : X 1 0 = X 0 1 := by simpa using hX.isHermitian.apply 0 1
  rw [det_fin_two] at h1 h2 ⊢
  rw [det_fin_two]
  simp only [Matrix.add_apply]
  rw [sN] at h1 ⊢
  rw [sX] at h2 ⊢
  have key : 2 * (N 0 1 * X 0 1) ≤ N 0 0 * X 1 1 + N 1 1 * X 0 0 := by
    refine (abs_le_of_sq_le_sq' ?_ (by positivity)).2
    have e1 : N 0 1 ^ 2 * X 0 1 ^ 2 ≤ N 0 0 * N 1 1 * (X 0 0 * X 1 1) :=
      mul_le_mul (by nlinarith) (by nlinarith) (sq_nonneg _) (mul_nonneg n0 n1)
    nlinarith [sq_nonneg (N 0 0 * X 1 1 - N 1 1 * X 0 0)]
  nlinarith

/-- The blocks of the variance: variables 0 and 3, and 1 and 2. -/
def blocks : Fin 2 ⊕ Fin 2 ≃ Fin 4 where
  toFun := Sum.elim ![0, 3] ![1, 2]
  invFun := ![Sum.inl 0, Sum.inr 0, Sum.inr 1, Sum.inl 1]
  left_inv := by decide
  right_inv := by decide

/-- Fischer's inequality for these blocks. -/
theorem fischer {S : Matrix (Fin 4) (Fin 4) ℝ} (h : S.PosDef) :
    0 < S 0 0 * S 3 3 - S 0 3 * S 0 3 ∧ 0 < S 1 1 * S 2 2 - S 1 2 * S 1 2 ∧
      S.det ≤ (S 0 0 * S 3 3 - S 0 3 * S 0 3) * (S 1 1 * S 2 2 - S 1 2 * S 1 2) := by
  have hs : ∀ p q, S p q = S q p := fun p q => by simpa using (h.isHermitian.apply p q).symm
  have hT : (S.submatrix blocks blocks).PosDef := h.submatrix blocks.injective
  set A : Matrix (Fin 2) (Fin 2) ℝ := (S.submatrix blocks blocks).toBlocks₁₁ with hA
  set B : Matrix (Fin 2) (Fin 2) ℝ := (S.submatrix blocks blocks).toBlocks₁₂ with hB
  set D : Matrix (Fin 2) (Fin 2) ℝ := (S.submatrix blocks blocks).toBlocks₂₂ with hD
  have hC : (S.submatrix blocks blocks).toBlocks₂₁ = Bᴴ := by
    ext p q
    simp [hB, toBlocks₂₁, toBlocks₁₂, hs (blocks (Sum.inr p))]
  have hblk : S.submatrix blocks blocks = fromBlocks A B Bᴴ D := by
    rw [← hC, fromBlocks_toBlocks]
  have pA : A.PosDef := h.submatrix (e := blocks ∘ Sum.inl) (blocks.injective.comp Sum.inl_injective)
  have pD : D.PosDef := h.submatrix (e := blocks ∘ Sum.inr) (blocks.injective.comp Sum.inr_injective)
  have dA : A.det = S 0 0 * S 3 3 - S 0 3 * S 0 3 := by
    rw [det_fin_two]
    simp [hA, toBlocks₁₁, blocks, hs 3 0]
  have dD : D.det = S 1 1 * S 2 2 - S 1 2 * S 1 2 := by
    rw [det_fin_two]
    simp [hD, toBlocks₂₂, blocks, hs 2 1]
  rw [← dA, ← dD]
  refine ⟨pA.det_pos, pD.det_pos, ?_⟩
  have : Invertible A := pA.isUnit.invertible
  rw [hblk] at hT
  have hsch := (PosDef.fromBlocks₁₁ B D pA).1 hT.posSemidef
  have hX : (Bᴴ * A⁻¹ * B).PosSemidef := pA.inv.posSemidef.conjTranspose_mul_mul_same B
  have hdet : S.det = A.det * (D - Bᴴ * A⁻¹ * B).det := by
    rw [← det_submatrix_equiv_self blocks S, hblk, det_fromBlocks₁₁, invOf_eq_nonsing_inv]
  rw [hdet]
  refine mul_le_mul_of_nonneg_left ?_ pA.det_pos.le
  have := det2_mono hsch hX
  rwa [sub_add_cancel] at this

variable {n : Nat}

/-- The variance of the test is positive if the covariance matrix is positive definite, and at most of the order 1 / n. -/
theorem wvar_bounds (hn : 3 ≤ n) {a0 a1 a2 a3 : Fin n → ℝ} (h : (covMat ![a0, a1, a2, a3]).PosDef) :
    0 < wvar a0 a1 a2 a3 ∧
      wvar a0 a1 a2 a3 ≤ 10 * ((cov a0 a0 * cov a3 a3 - cov a0 a3 * cov a0 a3) * (cov a1 a1 * cov a2 a2 - cov a1 a2 * cov a1 a2)) / n := by
  obtain ⟨h1, h2, h3⟩ := fischer h
  have e : ∀ p q, covMat ![a0, a1, a2, a3] p q = cov (![a0, a1, a2, a3] p) (![a0, a1, a2, a3] q) := fun _ _ => rfl
  simp only [e] at h1 h2 h3
  have hpos := h.det_pos
  unfold wvar
  simp only [Matrix.cons_val] at h1 h2 h3 ⊢
  set P1 := cov a0 a0 * cov a3 a3 - cov a0 a3 * cov a0 a3
  set P2 := cov a1 a1 * cov a2 a2 - cov a1 a2 * cov a1 a2
  set T := (covMat ![a0, a1, a2, a3]).det
  have hn' : (3 : ℝ) ≤ n := by exact_mod_cast hn
  have a1p : (0 : ℝ) < n - 1 := by linarith
  have a2p : (0 : ℝ) < n - 2 := by linarith
  have hP : 0 < P1 * P2 := mul_pos h1 h2
  constructor
  · have : ((n : ℝ) + 1) / ((n - 1) * (n - 2)) * P1 * P2 - T / (n - 2) = (((n : ℝ) + 1) * (P1 * P2) - (n - 1) * T) / ((n - 1) * (n - 2)) := by
      field_simp
    rw [this]
    apply div_pos _ (by positivity)
    nlinarith
  · have hT : 0 ≤ T / ((n : ℝ) - 2) := by positivity
    have : ((n : ℝ) + 1) / ((n - 1) * (n - 2)) ≤ 10 / n := by
      rw [div_le_div_iff₀ (by positivity) (by linarith)]
      nlinarith
    calc ((n : ℝ) + 1) / ((n - 1) * (n - 2)) * P1 * P2 - T / (n - 2) ≤ ((n : ℝ) + 1) / ((n - 1) * (n - 2)) * (P1 * P2) := by linarith [hT, mul_assoc (((n : ℝ) + 1) / ((n - 1) * (n - 2))) P1 P2]
      _ ≤ 10 / n * (P1 * P2) := mul_le_mul_of_nonneg_right this hP.le
      _ = _ := by ring

/-- With a positive definite covariance matrix: a difference of zero is recognised, one that is not zero is from some number of rows on. -/
theorem vanishes_four {Φ : ℝ → ℝ} (h0 : Φ 0 = 1 / 2) (ht : Filter.Tendsto Φ Filter.atBot (nhds 0)) {alpha : ℝ} (ha : 0 < alpha) (ha' : alpha < 1)
    (S : Matrix (Fin 4) (Fin 4) ℝ) (hS : S.PosDef) : ∃ N : Nat, ∀ n ≥ N, ∀ a : Fin 4 → Fin n → ℝ, covMat a = S →
      ∃ b, vanishes Φ alpha (a 0) (a 1) (a 2) (a 3) = .ok b ∧ (b = true ↔ S 0 2 * S 1 3 = S 0 3 * S 1 2) := by
  obtain ⟨t, ht'⟩ : ∃ t : ℝ, ∀ x ≤ t, Φ x < alpha / 2 := by
    have := ht.eventually (gt_mem_nhds (by linarith : (0 : ℝ) < alpha / 2))
    exact Filter.eventually_atBot.1 this
  set P := (S 0 0 * S 3 3 - S 0 3 * S 0 3) * (S 1 1 * S 2 2 - S 1 2 * S 1 2) with hP
  set τ := S 0 2 * S 1 3 - S 0 3 * S 1 2 with hτ
  obtain ⟨N, hN⟩ := exists_nat_ge (10 * P * t ^ 2 / τ ^ 2)
  refine ⟨max 3 N, fun n hn a hcov => ?_⟩
  have hn3 : 3 ≤ n := (le_max_left _ _).trans hn
  have hnN : N ≤ n := (le_max_right _ _).trans hn
  have e4 : ![a 0, a 1, a 2, a 3] = a := by
    funext p
    fin_cases p <;> rfl
  have hc : ∀ p q, cov (a p) (a q) = S p q := fun p q => by rw [← hcov]; rfl
  have hpd : (covMat ![a 0, a 1, a 2, a 3]).PosDef := by rw [e4, hcov]; exact hS
  obtain ⟨w1, w2⟩ := wvar_bounds hn3 hpd
  simp only [hc] at w2
  rw [← hP] at w2
  have htau : tau (a 0) (a 1) (a 2) (a 3) = τ := by
    unfold tau
    simp only [hc, hτ]
  have hp : pvalue Φ (a 0) (a 1) (a 2) (a 3) = .ok (some (2 * Φ (-|τ / Real.sqrt (wvar (a 0) (a 1) (a 2) (a 3))|))) := by
    unfold pvalue
    rw [if_neg (by omega), if_neg (by omega), if_neg w1.ne', htau, abs_of_pos w1]
    rfl
  have hv : vanishes Φ alpha (a 0) (a 1) (a 2) (a 3) = .ok (decide (alpha < 2 * Φ (-|τ / Real.sqrt (wvar (a 0) (a 1) (a 2) (a 3))|))) := by
    unfold vanishes
    rw [hp]
    rfl
  refine ⟨_, hv, ?_⟩
  rw [decide_eq_true_eq]
  constructor
  · intro hlt
    by_contra hne
    have hτ0 : τ ≠ 0 := sub_ne_zero.2 hne
    set w := wvar (a 0) (a 1) (a 2) (a 3)
    have hle : -|τ / Real.sqrt w| ≤ t := by
      rw [neg_le, abs_div, abs_of_pos (Real.sqrt_pos.2 w1), le_div_iff₀ (Real.sqrt_pos.2 w1)]
      by_cases hneg : 0 ≤ t
      · have : 0 ≤ t * Real.sqrt w := by positivity
        have : 0 ≤ |τ| := abs_nonneg τ
        linarith
      · push Not at hneg
        refine (abs_le_of_sq_le_sq' ?_ (abs_nonneg τ)).2
        rw [mul_pow, Real.sq_sqrt w1.le, sq_abs, neg_sq]
        have hn0 : (0 : ℝ) < n := by exact_mod_cast (by omega : 0 < n)
        have hτ2 : 0 < τ ^ 2 := by positivity
        have h1 : 10 * P * t ^ 2 / τ ^ 2 ≤ n := hN.trans (by exact_mod_cast hnN)
        rw [div_le_iff₀ hτ2] at h1
        calc t ^ 2 * w ≤ t ^ 2 * (10 * P / n) := mul_le_mul_of_nonneg_left w2 (sq_nonneg t)
          _ = 10 * P * t ^ 2 / n := by ring
          _ ≤ τ ^ 2 := by rw [div_le_iff₀ hn0]; linarith
    have := ht' _ hle
    linarith
  · intro he
    have : τ = 0 := sub_eq_zero.2 he
    rw [this]
    simp only [zero_div, abs_zero, neg_zero, h0]
    linarith

/-- For every positive semidefinite matrix there are samples of any greater number of rows with this covariance matrix. -/
theorem exists_sample {V : Type} [Fintype V] [DecidableEq V] {S : Matrix V V ℝ} (hS : S.PosSemidef) (hn : Fintype.card V + 1 ≤ n) :
    ∃ x : V → Fin n → ℝ, ∀ u v, cov (x u) (x v) = S u v := by
  classical
  obtain ⟨B, hB⟩ : ∃ B : Matrix V V ℝ, S = B * B.transpose := by
    obtain ⟨B, hB, -, e⟩ := CFC.exists_sqrt_of_isSelfAdjoint_of_quasispectrumRestricts (a := S) hS.isHermitian
      (QuasispectrumRestricts.nnreal_of_nonneg hS.nonneg)
    have hB' : B.transpose = B := by
      have := hB.star_eq
      rwa [star_eq_conjTranspose, conjTranspose_eq_transpose_of_trivial] at this
    exact ⟨B, by rw [hB', e]⟩
  let one : EuclideanSpace ℝ (Fin n) := WithLp.toLp 2 fun _ => 1
  let W : Submodule ℝ (EuclideanSpace ℝ (Fin n)) := (ℝ ∙ one)ᗮ
  have hone : one ≠ 0 := by
    intro h
    have := congrFun (congrArg WithLp.ofLp h) ⟨0, by omega⟩
    simp [one] at this
  have hdim : Module.finrank ℝ W = n - 1 := by
    have h1 := Submodule.finrank_add_finrank_orthogonal (ℝ ∙ one)
    rw [finrank_span_singleton hone, finrank_euclideanSpace_fin] at h1
    change 1 + Module.finrank ℝ W = n at h1
    omega
  let b := stdOrthonormalBasis ℝ W
  let emb : V → Fin (Module.finrank ℝ W) := fun v => ⟨Fintype.equivFin V v, by have := (Fintype.equivFin V v).2; omega⟩
  have hemb : Function.Injective emb := fun u v h => (Fintype.equivFin V).injective (Fin.ext (by simpa [emb] using h))
  let c : ℝ := Real.sqrt ((n : ℝ) - 1)
  let w : V → Fin n → ℝ := fun v => WithLp.ofLp (b (emb v) : EuclideanSpace ℝ (Fin n))
  have hw : ∀ u v, ∑ r, w u r * w v r = if u = v then 1 else 0 := by
    intro u v
    have h1 := orthonormal_iff_ite.1 b.orthonormal (emb v) (emb u)
    have h2 : inner ℝ (b (emb v)) (b (emb u)) = ∑ r, w u r * w v r := by
      rw [Submodule.coe_inner, PiLp.inner_apply]
      simp [w]
    rw [h2] at h1
    rw [h1]
    by_cases huv : u = v
    · simp [huv]
    · rw [if_neg huv, if_neg fun e => huv (hemb e).symm]
  have hw0 : ∀ v, ∑ r, w v r = 0 := by
    intro v
    have h1 := (Submodule.mem_orthogonal_singleton_iff_inner_right (𝕜 := ℝ) (u := one)).1 (b (emb v)).2
    rw [PiLp.inner_apply] at h1
    simpa [one, w] using h1
  refine ⟨fun v r => ∑ k, c * B v k * w k r, fun u v => ?_⟩
  have hm : ∀ v, mean (fun r => ∑ k, c * B v k * w k r) = 0 := by
    intro v
    unfold mean
    rw [Finset.sum_comm]
    simp [← Finset.mul_sum, hw0]
  unfold cov
  rw [hm, hm]
  simp only [sub_zero]
  have hn1 : (0 : ℝ) ≤ (n : ℝ) - 1 := by
    have : (1 : ℝ) ≤ n := by exact_mod_cast (by omega : 1 ≤ n)
    linarith
  by_cases hcard : Fintype.card V = 0
  · exact absurd hcard (Fintype.card_pos_iff.2 ⟨u⟩).ne'
  have hn2 : (n : ℝ) - 1 ≠ 0 := by
    have : (1 : ℝ) < n := by exact_mod_cast (by omega : 1 < n)
    linarith
  have e : ∑ r, (∑ k, c * B u k * w k r) * (∑ k, c * B v k * w k r) = ((n : ℝ) - 1) * S u v := by
    calc ∑ r, (∑ k, c * B u k * w k r) * (∑ k, c * B v k * w k r)
        = ∑ r, ∑ k, ∑ l, (c * B u k * (c * B v l)) * (w k r * w l r) := by
          refine Finset.sum_congr rfl fun r _ => ?_
          rw [Finset.sum_mul_sum]
          refine Finset.sum_congr rfl fun k _ => Finset.sum_congr rfl fun l _ => by ring
      _ = ∑ k, ∑ l, (c * B u k * (c * B v l)) * ∑ r, w k r * w l r := by
          rw [Finset.sum_comm]
          refine Finset.sum_congr rfl fun k _ => ?_
          rw [Finset.sum_comm]
          refine Finset.sum_congr rfl fun l _ => by rw [Finset.mul_sum]
      _ = ((n : ℝ) - 1) * S u v := by
          simp only [hw, mul_ite, mul_one, mul_zero, Finset.sum_ite_eq, Finset.mem_univ, if_true]
          rw [hB, mul_apply, Finset.mul_sum]
          refine Finset.sum_congr rfl fun k _ => ?_
          have : c * c = (n : ℝ) - 1 := Real.mul_self_sqrt hn1
          rw [transpose_apply, ← this]
          ring
  rw [e, mul_div_cancel_left₀ _ hn2]

end Cdmir.Tetrad
