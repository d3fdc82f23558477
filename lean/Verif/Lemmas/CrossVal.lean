import Verif.Model.CrossVal
import Verif.Lemmas.Hsic
import Mathlib.Analysis.Matrix.PosDef
import Mathlib.Tactic.Linarith
import Mathlib.Tactic.LinearCombination
import Mathlib.Tactic.Ring

/-! Lemmas about the kernel matrices and the folds of the cross-validated scores. -/

set_option linter.unusedSectionVars false

namespace Cdmir.CV
open KTest

variable {T d e p : ℕ}

theorem dist2_eq (X : Data T d) (i j : Fin T) : dist2 X i j = sqDist X i j := by
  unfold dist2
  rw [gramDist_eq, if_neg (not_lt.2 (sqDist_nonneg X i j))]

/-- The kernel matrix in one formula. -/
theorem kern_eq (c q : ℝ) (X : Data T d) : kern c q X = (median (upper (sqDist X))).map fun m =>
    Matrix.of fun i j => Real.exp (-((m * c ^ 2 * q)⁻¹ * sqDist X i j)) := by
  have h0 : gramDist X = sqDist X := by funext i j; exact gramDist_eq X i j
  unfold kern
  rw [h0]
  cases hm : median (upper (sqDist X)) with
  | none => rfl
  | some m =>
    have hp := median_pos (fun x hx => (mem_upper.1 hx).1) hm
    simp only [Option.map_some]
    congr 1
    ext i j
    simp only [rbf, Matrix.of_apply, one_mul, dist2_eq]
    rw [mul_pow, Real.sq_sqrt (by positivity)]
    congr 1
    have : 1 / (1 / 2 * m * c ^ 2 * q) / 2 = (m * c ^ 2 * q)⁻¹ := by
      rw [div_div, one_div]
      congr 1
      ring
    rw [this]
    ring

theorem kern_scale (c q : ℝ) {X : Data T d} {X' : Data T e} {a : ℝ} (ha : 0 < a) (h : ∀ i j, sqDist X' i j = a * sqDist X i j) :
    kern c q X' = kern c q X := by
  rw [kern_eq, kern_eq, upper_scale ha h, median_scale _ ha, Option.map_map]
  congr 1
  funext m
  ext i j
  simp only [Function.comp, Matrix.of_apply, h]
  congr 2
  rw [mul_assoc a, mul_assoc a, mul_inv]
  field_simp

theorem kern_none {c q : ℝ} {X : Data T d} : kern c q X = none ↔ ∀ i j, X i = X j := by
  rw [kern_eq, Option.map_eq_none_iff, ← kernelOf_none, kernelOf_eq, Option.map_eq_none_iff]

theorem kern_some {c q : ℝ} (hq : 0 ≤ q) {X : Data T d} {K : Matrix (Fin T) (Fin T) ℝ} (h : kern c q X = some K) : K.PosSemidef := by
  rw [kern_eq] at h
  obtain ⟨m, hm, rfl⟩ := Option.map_eq_some_iff.1 h
  have hp := median_pos (fun x hx => (mem_upper.1 hx).1) hm
  exact gauss_psd X (inv_nonneg.2 (by positivity))

theorem ones_psd : (Matrix.of fun _ _ => 1 : Matrix (Fin T) (Fin T) ℝ).PosSemidef := by
  have := gauss_psd (fun (_ : Fin T) (_ : Fin 1) => (0 : ℝ)) (w := 0) le_rfl
  simpa using this

/-- The product over the parents keeps what a product of two keeps. -/
theorem kernPar_some {P : Matrix (Fin T) (Fin T) ℝ → Prop} (h1 : P (Matrix.of fun _ _ => 1))
    (hm : ∀ A B, P A → P B → P (Matrix.of fun i j => A i j * B i j)) :
    ∀ (l : List (Option (Matrix (Fin T) (Fin T) ℝ))), (∀ o ∈ l, ∀ K, o = some K → P K) → ∀ K, kernPar l = some K → P K := by
  suffices h : ∀ (l : List (Option (Matrix (Fin T) (Fin T) ℝ))) (acc : Option (Matrix (Fin T) (Fin T) ℝ)),
      (∀ K, acc = some K → P K) → (∀ o ∈ l, ∀ K, o = some K → P K) → ∀ K,
        l.foldl (fun acc K => acc.bind fun A => K.map fun B => Matrix.of fun i j => A i j * B i j) acc = some K → P K from
    fun l hl => h l _ (fun K hK => by cases hK; exact h1) hl
  intro l
  induction l with
  | nil => intro acc ha _ K h; exact ha K h
  | cons o l ih =>
    intro acc ha hl K h
    refine ih _ (fun K hK => ?_) (fun o' ho' => hl o' (List.mem_cons_of_mem _ ho')) K h
    obtain ⟨A, hA, hK⟩ := Option.bind_eq_some_iff.1 hK
    obtain ⟨B, hB, rfl⟩ := Option.map_eq_some_iff.1 hK
    exact hm A B (ha A hA) (hl o (List.mem_cons_self ..) B hB)

theorem kernPar_none : ∀ (l : List (Option (Matrix (Fin T) (Fin T) ℝ))), kernPar l = none ↔ none ∈ l := by
  suffices h : ∀ (l : List (Option (Matrix (Fin T) (Fin T) ℝ))) (acc : Option (Matrix (Fin T) (Fin T) ℝ)),
      l.foldl (fun acc K => acc.bind fun A => K.map fun B => Matrix.of fun i j => A i j * B i j) acc = none ↔
        acc = none ∨ none ∈ l from fun l => by rw [kernPar, h]; simp
  intro l
  induction l with
  | nil => intro acc; simp
  | cons o l ih =>
    intro acc
    rw [List.foldl_cons, ih]
    cases acc <;> cases o <;> simp

theorem kernPar_perm {l l' : List (Option (Matrix (Fin T) (Fin T) ℝ))} (h : l.Perm l') : kernPar l = kernPar l' := by
  refine h.foldl_eq' (fun a _ b _ acc => ?_) _
  cases acc <;> cases a <;> cases b <;> try rfl
  simp only [Option.bind_some, Option.map_some]
  congr 1
  ext i j
  simp only [Matrix.of_apply]
  ring

/-! Linear algebra of one fold. -/

section
variable {m : Type} [Fintype m] [DecidableEq m]

theorem quad_nonneg {M : Matrix m m ℝ} (h : M.PosSemidef) (x : m → ℝ) : 0 ≤ x ⬝ᵥ M.mulVec x := by
  simpa using h.dotProduct_mulVec_nonneg x

theorem herm_symm {M : Matrix m m ℝ} (h : M.IsHermitian) : M.transpose = M := by
  rwa [Matrix.IsHermitian, Matrix.conjTranspose_eq_transpose_of_trivial] at h

theorem one_add_posDef {M : Matrix m m ℝ} (h : M.PosSemidef) : (1 + M).PosDef := Matrix.PosDef.one.add_posSemidef h

theorem det_one_add {M : Matrix m m ℝ} (h : M.PosSemidef) : 1 ≤ (1 + M).det := by
  have hH : (1 + M).IsHermitian := Matrix.isHermitian_one.add h.isHermitian
  rw [hH.det_eq_prod_eigenvalues]
  refine Finset.prod_induction _ (fun x : ℝ => 1 ≤ x) (fun a b ha hb => one_le_mul_of_one_le_of_one_le ha hb) le_rfl fun i _ => ?_
  have he := hH.mulVec_eigenvectorBasis i
  set v : m → ℝ := ⇑(hH.eigenvectorBasis i) with hv
  have h1 : v ⬝ᵥ (1 + M).mulVec v = hH.eigenvalues i * (v ⬝ᵥ v) := by
    rw [he]; simp
  rw [Matrix.add_mulVec, dotProduct_add, Matrix.one_mulVec] at h1
  have h2 := quad_nonneg h v
  have h3 : 0 < v ⬝ᵥ v := by
    have hne : v ≠ 0 := fun h0 => hH.eigenvectorBasis.toBasis.ne_zero i (by
      rw [OrthonormalBasis.coe_toBasis]; exact PiLp.ext fun j => congrFun h0 j)
    have h4 : 0 ≤ v ⬝ᵥ v := Finset.sum_nonneg fun j _ => mul_self_nonneg _
    exact lt_of_le_of_ne h4 fun h0 => hne (dotProduct_self_eq_zero.1 h0.symm)
  have : 1 * (v ⬝ᵥ v) ≤ hH.eigenvalues i * (v ⬝ᵥ v) := by linarith
  exact le_of_mul_le_mul_right this h3

/-- Two expressions of one entry of a product. -/
theorem entry_eq {r : Type} (U P : Matrix m r ℝ) (M : Matrix m m ℝ) (j : r) :
    (U.transpose * M * P) j j = (fun t => U t j) ⬝ᵥ M.mulVec (fun t => P t j) := by
  rw [Matrix.mul_assoc]
  simp [Matrix.mul_apply, dotProduct, Matrix.mulVec]

theorem symm_dot {M : Matrix m m ℝ} (h : M.transpose = M) (x y : m → ℝ) : x ⬝ᵥ M.mulVec y = y ⬝ᵥ M.mulVec x := by
  rw [Matrix.dotProduct_mulVec, ← Matrix.mulVec_transpose, h, dotProduct_comm]

/-- The bound without parents. -/
theorem schur_none {S : Matrix m m ℝ} (hS : S.PosSemidef) {k : ℝ} {v : m → ℝ}
    (hq : ∀ x : m → ℝ, 0 ≤ k - 2 * (x ⬝ᵥ v) + x ⬝ᵥ S.mulVec x) {c : ℝ} (hc : 0 ≤ c) :
    0 ≤ k - c * (v ⬝ᵥ ((1 + c • S)⁻¹).mulVec v) := by
  have hN := one_add_posDef (hS.smul hc)
  have hy : (1 + c • S).mulVec ((1 + c • S)⁻¹.mulVec v) = v := by
    rw [Matrix.mulVec_mulVec, Matrix.mul_nonsing_inv _ ((Matrix.isUnit_iff_isUnit_det _).1 hN.isUnit), Matrix.one_mulVec]
  generalize (1 + c • S)⁻¹.mulVec v = y at hy ⊢
  rw [Matrix.add_mulVec, Matrix.one_mulVec, Matrix.smul_mulVec] at hy
  have h1 := congrArg (y ⬝ᵥ ·) hy
  simp only [dotProduct_add, dotProduct_smul, smul_eq_mul] at h1
  have h2 := hq (c • y)
  simp only [Matrix.mulVec_smul, dotProduct_smul, smul_dotProduct, smul_eq_mul] at h2
  have h3 : 0 ≤ y ⬝ᵥ y := Finset.sum_nonneg fun j _ => mul_self_nonneg _
  rw [dotProduct_comm v y]
  have h4 : c * (c * (y ⬝ᵥ S.mulVec y)) = c * (y ⬝ᵥ v) - c * (y ⬝ᵥ y) := by
    rw [← h1]; ring
  have := mul_nonneg hc h3
  linarith

/-- The bound with parents. -/
theorem schur_par {S W : Matrix m m ℝ} (hS : S.PosSemidef) (hW : W.transpose = W) {k : ℝ} {v p : m → ℝ}
    (hq : ∀ x : m → ℝ, 0 ≤ k - 2 * (x ⬝ᵥ v) + x ⬝ᵥ S.mulVec x) {c : ℝ} (hc : 0 ≤ c) {V : Matrix m m ℝ}
    (hV : V = W * (1 + c • (W * S * W))⁻¹ * W) :
    0 ≤ k + p ⬝ᵥ (W * S * W).mulVec p - 2 * (v ⬝ᵥ W.mulVec p) - c * (v ⬝ᵥ V.mulVec v) -
      c * (p ⬝ᵥ (W * S * V * S * W).mulVec p) + 2 * c * (v ⬝ᵥ (V * S * W).mulVec p) := by
  have hSt : S.transpose = S := herm_symm hS.isHermitian
  have hWSW : (W * S * W).PosSemidef := by
    have := hS.mul_mul_conjTranspose_same W
    rwa [Matrix.conjTranspose_eq_transpose_of_trivial, hW] at this
  have hN := one_add_posDef (hWSW.smul hc)
  have hNt : (1 + c • (W * S * W)).transpose = 1 + c • (W * S * W) := herm_symm hN.isHermitian
  have hVt : V.transpose = V := by
    rw [hV, Matrix.transpose_mul, Matrix.transpose_mul, Matrix.transpose_nonsing_inv, hNt, hW]
    simp only [Matrix.mul_assoc]
  set a := W.mulVec p with ha
  set u := v - S.mulVec a with hu
  have hy : (1 + c • (W * S * W)).mulVec ((1 + c • (W * S * W))⁻¹.mulVec (W.mulVec u)) = W.mulVec u := by
    rw [Matrix.mulVec_mulVec, Matrix.mul_nonsing_inv _ ((Matrix.isUnit_iff_isUnit_det _).1 hN.isUnit), Matrix.one_mulVec]
  have hVu : V.mulVec u = W.mulVec ((1 + c • (W * S * W))⁻¹.mulVec (W.mulVec u)) := by
    rw [hV, Matrix.mulVec_mulVec, Matrix.mulVec_mulVec]
  generalize (1 + c • (W * S * W))⁻¹.mulVec (W.mulVec u) = y at hy hVu
  have e1 : p ⬝ᵥ (W * S * W).mulVec p = a ⬝ᵥ S.mulVec a := by
    rw [Matrix.mul_assoc, ← Matrix.mulVec_mulVec, symm_dot hW, ← Matrix.mulVec_mulVec, dotProduct_comm, ha]
  have e2 : p ⬝ᵥ (W * S * V * S * W).mulVec p = S.mulVec a ⬝ᵥ V.mulVec (S.mulVec a) := by
    rw [Matrix.mul_assoc, Matrix.mul_assoc, Matrix.mul_assoc, ← Matrix.mulVec_mulVec, symm_dot hW, dotProduct_comm, ← ha,
      ← Matrix.mulVec_mulVec, symm_dot hSt, dotProduct_comm, ← Matrix.mulVec_mulVec, ← Matrix.mulVec_mulVec, ← ha]
  have e3 : v ⬝ᵥ (V * S * W).mulVec p = v ⬝ᵥ V.mulVec (S.mulVec a) := by
    rw [Matrix.mul_assoc, ← Matrix.mulVec_mulVec, ← Matrix.mulVec_mulVec, ← ha]
  have e4 : u ⬝ᵥ V.mulVec u = v ⬝ᵥ V.mulVec v - 2 * (v ⬝ᵥ V.mulVec (S.mulVec a)) + S.mulVec a ⬝ᵥ V.mulVec (S.mulVec a) := by
    rw [hu, Matrix.mulVec_sub, dotProduct_sub, sub_dotProduct, sub_dotProduct, symm_dot hVt (S.mulVec a) v]
    ring
  have e5 : u ⬝ᵥ V.mulVec u = y ⬝ᵥ W.mulVec u := by
    rw [hVu, symm_dot hW]
  rw [Matrix.add_mulVec, Matrix.one_mulVec, Matrix.smul_mulVec] at hy
  have h1 := congrArg (y ⬝ᵥ ·) hy
  simp only [dotProduct_add, dotProduct_smul, smul_eq_mul] at h1
  have e6 : y ⬝ᵥ (W * S * W).mulVec y = W.mulVec y ⬝ᵥ S.mulVec (W.mulVec y) := by
    rw [Matrix.mul_assoc, ← Matrix.mulVec_mulVec, symm_dot hW, ← Matrix.mulVec_mulVec, dotProduct_comm]
  have h2 := hq (a + c • W.mulVec y)
  simp only [Matrix.mulVec_smul, Matrix.mulVec_add, dotProduct_add, add_dotProduct, dotProduct_smul, smul_dotProduct, smul_eq_mul] at h2
  have e7 : y ⬝ᵥ W.mulVec u = W.mulVec y ⬝ᵥ v - W.mulVec y ⬝ᵥ S.mulVec a := by
    rw [symm_dot hW, dotProduct_comm, hu, dotProduct_sub]
  rw [symm_dot hSt a (W.mulVec y)] at h2
  have h3 : 0 ≤ c * (y ⬝ᵥ y) := mul_nonneg hc (Finset.sum_nonneg fun j _ => mul_self_nonneg _)
  have h4 : c * (c * (W.mulVec y ⬝ᵥ S.mulVec (W.mulVec y))) = c * (y ⬝ᵥ W.mulVec u) - c * (y ⬝ᵥ y) := by
    rw [← h1, ← e6]; ring
  rw [e1, e2, e3]
  have e8 : c * (u ⬝ᵥ V.mulVec u) = c * (v ⬝ᵥ V.mulVec v) - 2 * c * (v ⬝ᵥ V.mulVec (S.mulVec a)) +
      c * (S.mulVec a ⬝ᵥ V.mulVec (S.mulVec a)) := by rw [e4]; ring
  rw [e5] at e8
  have e9 : c * (y ⬝ᵥ W.mulVec u) = c * (W.mulVec y ⬝ᵥ v) - c * (W.mulVec y ⬝ᵥ S.mulVec a) := by rw [e7]; ring
  rw [dotProduct_comm v a]
  linarith

end

theorem block_psd {K : Matrix (Fin T) (Fin T) ℝ} (h : K.PosSemidef) (a : Finset (Fin T)) : (block K a a).PosSemidef := h.submatrix _

/-- The kernel matrix on one tested row and the rows trained on. -/
theorem block_quad {K : Matrix (Fin T) (Fin T) ℝ} (h : K.PosSemidef) (tr te : Finset (Fin T)) (j : te) (x : tr → ℝ) :
    0 ≤ block K te te j j - 2 * (x ⬝ᵥ fun t => block K tr te t j) + x ⬝ᵥ (block K tr tr).mulVec x := by
  have h1 := quad_nonneg (h.submatrix fun o : Option tr => o.elim j.1 fun t => t.1) fun o => o.elim 1 fun t => -x t
  simp only [dotProduct, Matrix.mulVec, Fintype.sum_option, Option.elim, Matrix.submatrix_apply] at h1
  simp only [dotProduct, Matrix.mulVec, block, Matrix.submatrix_apply]
  refine le_of_le_of_eq h1 ?_
  have hs : ∀ t : tr, K j.1 t.1 = K t.1 j.1 := fun t => psd_symm h _ _
  simp only [hs, mul_neg, mul_one, one_mul, neg_mul, mul_add, Finset.sum_add_distrib, Finset.sum_neg_distrib, Finset.mul_sum]
  have : ∑ t : tr, K t.1 j.1 * x t = ∑ t : tr, x t * K t.1 j.1 := Finset.sum_congr rfl fun t _ => mul_comm _ _
  rw [this]
  simp only [two_mul, Finset.sum_add_distrib]
  ring_nf

end Cdmir.CV
