import Verif.Model.Gpr
import Verif.Lemmas.CrossVal
import Verif.Props.Minimize
import Mathlib.Analysis.SpecialFunctions.Log.Deriv
import Mathlib.Analysis.SpecialFunctions.ExpDeriv
import Mathlib.Tactic.FieldSimp
import Mathlib.Tactic.FinCases
import Mathlib.Tactic.NormNum

/-!
Properties C112 (what the marginal scores regress on what), C113 (the value of `gpr_multi_new`) and C114 (its gradient).
-/

namespace Cdmir.Gpr
open KTest CV

variable {T D m p : ℕ}

/-- The covariance matrix of a Gaussian process with length scales `exp(e d)`, signal `exp(2 s)` and noise `exp(2 t)`. -/
noncomputable def Spec.cov (X : Data T D) (e : Fin D → ℝ) (s t : ℝ) : Matrix (Fin T) (Fin T) ℝ :=
  Matrix.of fun i j => Real.exp (2 * s) * Real.exp (-(∑ d, ((X i d - X j d) / Real.exp (e d)) ^ 2) / 2) +
    if i = j then Real.exp (2 * t) else 0

theorem vVec_two (D : ℕ) : vVec D [.seard, .noise] = List.replicate (D + 1) 0 ++ [1] := by
  simp [vVec, nPar, List.zipIdx]

theorem zip_rep {l : List ℝ} (a : ℕ) : (List.replicate l.length a).zip l = l.map fun x => (a, x) := by
  induction l with
  | nil => rfl
  | cons x l ih => simp [List.replicate_succ, ih]

theorem pick_two {e : List ℝ} (he : e.length = D) (s t : ℝ) :
    pick (vVec D [.seard, .noise]) (e ++ [s, t]) 0 = e ++ [s] ∧ pick (vVec D [.seard, .noise]) (e ++ [s, t]) 1 = [t] := by
  have hz : (List.replicate (D + 1) 0 ++ [1]).zip (e ++ [s, t]) = ((e ++ [s]).map fun x => (0, x)) ++ [(1, t)] := by
    have h1 : e ++ [s, t] = (e ++ [s]) ++ [t] := by simp
    rw [h1, List.zip_append (by simp [he])]
    have h2 : (e ++ [s]).length = D + 1 := by simp [he]
    rw [← h2, zip_rep]
    rfl
  unfold pick
  rw [vVec_two, hz]
  constructor
  · rw [List.filter_append, List.filter_map, List.filter_eq_self.2 (by simp [Function.comp])]
    simp
  · rw [List.filter_append, List.filter_map, List.filter_eq_nil_iff.2 (by simp [Function.comp])]
    simp

theorem covSEard_matrix {e : List ℝ} (he : e.length = D) (s : ℝ) (X : Data T D) :
    covSEard .matrix (e ++ [s]) X = .ok (Matrix.of fun i j =>
      Real.exp (2 * s) * Real.exp (-(∑ d : Fin D, ((X i d - X j d) / Real.exp (e.getD d.1 0)) ^ 2) / 2)) := by
  have h1 : (e ++ [s])[D]? = some s := by rw [List.getElem?_append_right (by omega)]; simp [he]
  unfold covSEard
  rw [h1]
  simp only [sqDist1, Matrix.of_apply]
  congr 2
  funext i j
  congr 3
  refine congrArg _ (Finset.sum_congr rfl fun d _ => ?_)
  have h2 : (e ++ [s]).getD d.1 0 = e.getD d.1 0 := by
    simp only [List.getD_eq_getElem?_getD]
    rw [List.getElem?_append_left (by have := d.2; omega)]
  rw [h2]
  ring

/-- C113, the covariance. The bookkeeping of `covSum` gives each function its own parameters: for inputs that are matrices the covariance is
that of a Gaussian process with one length scale per column, plus noise on the diagonal. -/
theorem c113_cov {e : List ℝ} (he : e.length = D) (s t : ℝ) (X : Data T D) :
    covSum .matrix [.seard, .noise] (e ++ [s, t]) X = .ok (Spec.cov X (fun d => e.getD d.1 0) s t) := by
  obtain ⟨h0, h1⟩ := pick_two he s t
  unfold covSum
  simp only [List.zipIdx, List.foldlM_cons, List.foldlM_nil, covOne, h0, h1, Nat.zero_add, covSEard_matrix he, covNoise, Except.map]
  simp only [bind, Except.bind, pure, Except.pure, zero_add]
  congr 1
  ext i j
  simp only [Spec.cov, Matrix.add_apply, Matrix.of_apply, Matrix.smul_apply, Matrix.one_apply, smul_eq_mul, mul_ite, mul_one, mul_zero]

/-- Without the noise. -/
noncomputable def seMat (X : Data T D) (e : Fin D → ℝ) (s : ℝ) : Matrix (Fin T) (Fin T) ℝ :=
  Matrix.of fun i j => Real.exp (2 * s) * Real.exp (-(∑ d, ((X i d - X j d) / Real.exp (e d)) ^ 2) / 2)

theorem cov_eq (X : Data T D) (e : Fin D → ℝ) (s t : ℝ) : Spec.cov X e s t = seMat X e s + Real.exp (2 * t) • 1 := by
  ext i j
  simp [Spec.cov, seMat, Matrix.one_apply]

theorem seMat_psd (X : Data T D) (e : Fin D → ℝ) (s : ℝ) : (seMat X e s).PosSemidef := by
  have h := (gauss_psd (fun i d => X i d / Real.exp (e d)) (w := 1 / 2) (by norm_num)).smul (Real.exp_pos (2 * s)).le
  convert h using 1
  ext i j
  simp only [seMat, sqDist, Matrix.smul_apply, Matrix.of_apply, smul_eq_mul]
  congr 2
  have : ∀ d, (X i d - X j d) / Real.exp (e d) = X i d / Real.exp (e d) - X j d / Real.exp (e d) := fun d => sub_div _ _ _
  simp only [this]
  ring

theorem cov_posDef (X : Data T D) (e : Fin D → ℝ) (s t : ℝ) : (Spec.cov X e s t).PosDef := by
  rw [cov_eq, add_comm]
  exact (Matrix.PosDef.one.smul (Real.exp_pos _)).add_posSemidef (seMat_psd X e s)

/-- The value and the last derivative. -/
theorem gpr_ok {e : List ℝ} (he : e.length = D) (s t : ℝ) (X : Data T D) (y : Matrix (Fin T) (Fin m) ℝ) {K : Matrix (Fin T) (Fin T) ℝ}
    (hK : K = Spec.cov X (fun d => e.getD d.1 0) s t) :
    gpr .matrix [.seard, .noise] (e ++ [s, t]) X y =
      .ok (1 / 2 * (y.transpose * (K⁻¹ * y)).trace + m * (1 / 2 * Real.log K.det) + 1 / 2 * m * T * Real.log (2 * Real.pi),
        List.replicate (D + 1) 0 ++ [(∑ i, ∑ j, ((m : ℝ) • K⁻¹ - K⁻¹ * y * (K⁻¹ * y).transpose) i j *
          ((2 * Real.exp (2 * t)) • (1 : Matrix (Fin T) (Fin T) ℝ)) i j) / 2]) := by
  have hl : (e ++ [s, t]).length = D + 2 := by simp [he]
  have hd : covSumD .matrix [.seard, .noise] (e ++ [s, t]) X (D + 1) = .ok ((2 * Real.exp (2 * t)) • 1) := by
    unfold covSumD
    have : (vVec D [.seard, .noise])[D + 1]? = some 1 := by
      rw [vVec_two, List.getElem?_append_right (by simp)]
      simp
    rw [this]
    simp only [List.getElem?_cons_succ, List.getElem?_cons_zero, (pick_two he s t).2, covNoiseD]
  unfold gpr
  rw [if_neg (by simp [nPar, he]), c113_cov he, ← hK]
  simp only
  rw [if_neg (by rw [hK, not_not]; exact cov_posDef _ _ _ _), hl]
  simp only [show D + 2 - 1 = D + 1 from rfl, hd]

/-- The density at `v` of the normal distribution with mean zero and covariance `K`. -/
noncomputable def Spec.density (K : Matrix (Fin T) (Fin T) ℝ) (v : Fin T → ℝ) : ℝ :=
  (2 * Real.pi) ^ (-(T : ℝ) / 2) * K.det ^ (-(1 : ℝ) / 2) * Real.exp (-(v ⬝ᵥ K⁻¹.mulVec v) / 2)

/-- C113, the value. For inputs that are matrices and `D + 2` parameters, `gpr_multi_new` always returns, and its first result is minus the
sum, over the columns of `y`, of the logarithm of the density of the Gaussian process. -/
theorem c113_value {e : List ℝ} (he : e.length = D) (s t : ℝ) (X : Data T D) (y : Matrix (Fin T) (Fin m) ℝ) :
    ∃ g, gpr .matrix [.seard, .noise] (e ++ [s, t]) X y =
      .ok (-∑ c, Real.log (Spec.density (Spec.cov X (fun d => e.getD d.1 0) s t) fun r => y r c), g) := by
  rw [gpr_ok he s t X y rfl]
  refine ⟨_, congrArg Except.ok (Prod.ext ?_ rfl)⟩
  simp only
  have hdet := (cov_posDef X (fun d => e.getD d.1 0) s t).det_pos
  generalize Spec.cov X (fun d => e.getD d.1 0) s t = K at hdet
  have hlog : ∀ v : Fin T → ℝ, Real.log (Spec.density K v) =
      -(T : ℝ) / 2 * Real.log (2 * Real.pi) + -(1 : ℝ) / 2 * Real.log K.det + -(v ⬝ᵥ K⁻¹.mulVec v) / 2 := by
    intro v
    have hpi : 0 < 2 * Real.pi := by positivity
    unfold Spec.density
    rw [Real.log_mul (by positivity) (by positivity), Real.log_mul (by positivity) (by positivity), Real.log_exp,
      Real.log_rpow hpi, Real.log_rpow hdet]
  simp only [hlog, Finset.sum_add_distrib, Finset.sum_const, Finset.card_univ, Fintype.card_fin, nsmul_eq_mul]
  have htr : (y.transpose * (K⁻¹ * y)).trace = ∑ c, (fun r => y r c) ⬝ᵥ K⁻¹.mulVec fun r => y r c := by
    rw [← Matrix.mul_assoc]
    exact Finset.sum_congr rfl fun c _ => entry_eq y y K⁻¹ c
  rw [htr]
  have : ∑ c, -((fun r => y r c) ⬝ᵥ K⁻¹.mulVec fun r => y r c) / 2 = -(∑ c, (fun r => y r c) ⬝ᵥ K⁻¹.mulVec fun r => y r c) / 2 := by
    rw [← Finset.sum_div, Finset.sum_neg_distrib]
  rw [this]
  ring

/-- C113, the number of parameters. Any other number raises. -/
theorem c113_params (k : Kind) {lt : List ℝ} (h : lt.length ≠ D + 2) (X : Data T D) (y : Matrix (Fin T) (Fin m) ℝ) :
    gpr k [.seard, .noise] lt X y = .error .exception := by
  unfold gpr
  rw [if_pos (Or.inl (by simp [nPar]; omega))]

/-- C113, plain arrays. If the inputs are a plain array of at least two rows, as they are without parents, it raises. -/
theorem c113_array {e : List ℝ} (he : e.length = D) (hD : 0 < D) (hT : 2 ≤ T) (s t : ℝ) (X : Data T D) (y : Matrix (Fin T) (Fin m) ℝ) :
    gpr .array [.seard, .noise] (e ++ [s, t]) X y = .error .value := by
  have hc : covSum .array [.seard, .noise] (e ++ [s, t]) X = .error .value := by
    obtain ⟨h0, -⟩ := pick_two he s t
    have h1 : (e ++ [s])[D]? = some s := by rw [List.getElem?_append_right (by omega)]; simp [he]
    have h2 : covSEard .array (e ++ [s]) X = .error .value := by
      unfold covSEard
      rw [h1]
      simp only [sqDist1]
      rw [if_neg (by omega)]
    unfold covSum
    simp only [List.zipIdx, List.foldlM_cons, covOne, h0, h2, Except.map, bind, Except.bind]
  unfold gpr
  rw [if_neg (by simp [nPar, he]), hc]

/-! C114. -/

theorem spectral {M : Matrix (Fin T) (Fin T) ℝ} (h : M.PosSemidef) :
    ∃ (U : Matrix (Fin T) (Fin T) ℝ) (l : Fin T → ℝ), (∀ i, 0 ≤ l i) ∧ U.transpose * U = 1 ∧ U * U.transpose = 1 ∧
      M = U * Matrix.diagonal l * U.transpose := by
  have hH := h.isHermitian
  refine ⟨hH.eigenvectorUnitary, hH.eigenvalues, fun i => h.eigenvalues_nonneg i, ?_, ?_, ?_⟩
  · have := Unitary.coe_star_mul_self hH.eigenvectorUnitary
    rwa [Matrix.star_eq_conjTranspose, Matrix.conjTranspose_eq_transpose_of_trivial] at this
  · have := Unitary.coe_mul_star_self hH.eigenvectorUnitary
    rwa [Unitary.coe_star, Matrix.star_eq_conjTranspose, Matrix.conjTranspose_eq_transpose_of_trivial] at this
  · have := hH.spectral_theorem
    rw [Unitary.conjStarAlgAut_apply, Matrix.star_eq_conjTranspose, Matrix.conjTranspose_eq_transpose_of_trivial] at this
    exact this

section
variable {U M : Matrix (Fin T) (Fin T) ℝ} {l : Fin T → ℝ}

theorem shift_eq (h2 : U * U.transpose = 1) (hM : M = U * Matrix.diagonal l * U.transpose) (a : ℝ) :
    M + a • 1 = U * Matrix.diagonal (fun i => l i + a) * U.transpose := by
  have : Matrix.diagonal (fun i => l i + a) = Matrix.diagonal l + a • (1 : Matrix (Fin T) (Fin T) ℝ) := by
    ext i j
    simp [Matrix.diagonal_apply, Matrix.one_apply]
    split_ifs <;> simp
  rw [this, Matrix.mul_add, Matrix.add_mul, ← hM, Matrix.mul_smul, Matrix.mul_one, Matrix.smul_mul, h2]

theorem shift_inv (hl : ∀ i, 0 ≤ l i) (h1 : U.transpose * U = 1) (h2 : U * U.transpose = 1) (hM : M = U * Matrix.diagonal l * U.transpose)
    {a : ℝ} (ha : 0 < a) : (M + a • 1)⁻¹ = U * Matrix.diagonal (fun i => (l i + a)⁻¹) * U.transpose := by
  refine Matrix.inv_eq_right_inv ?_
  rw [shift_eq h2 hM]
  have h3 : Matrix.diagonal (fun i => l i + a) * Matrix.diagonal (fun i => (l i + a)⁻¹) = (1 : Matrix (Fin T) (Fin T) ℝ) := by
    rw [Matrix.diagonal_mul_diagonal, ← Matrix.diagonal_one]
    congr 1
    funext i
    exact mul_inv_cancel₀ (by have := hl i; positivity)
  calc U * Matrix.diagonal (fun i => l i + a) * U.transpose * (U * Matrix.diagonal (fun i => (l i + a)⁻¹) * U.transpose)
      = U * Matrix.diagonal (fun i => l i + a) * (U.transpose * U) * Matrix.diagonal (fun i => (l i + a)⁻¹) * U.transpose := by
        simp only [Matrix.mul_assoc]
    _ = U * (Matrix.diagonal (fun i => l i + a) * Matrix.diagonal (fun i => (l i + a)⁻¹)) * U.transpose := by
        rw [h1, Matrix.mul_one, Matrix.mul_assoc U]
    _ = 1 := by rw [h3, Matrix.mul_one, h2]

theorem shift_det (h2 : U * U.transpose = 1) (hM : M = U * Matrix.diagonal l * U.transpose) (a : ℝ) : (M + a • 1).det = ∏ i, (l i + a) := by
  rw [shift_eq h2 hM, Matrix.det_mul, Matrix.det_mul, Matrix.det_diagonal]
  have : U.det * U.transpose.det = 1 := by rw [← Matrix.det_mul, h2, Matrix.det_one]
  calc U.det * (∏ i, (l i + a)) * U.transpose.det = (U.det * U.transpose.det) * ∏ i, (l i + a) := by ring
    _ = _ := by rw [this, one_mul]

theorem trace_diag (g : Fin T → ℝ) (z : Matrix (Fin T) (Fin m) ℝ) :
    (z.transpose * Matrix.diagonal g * z).trace = ∑ i, g i * ∑ c, z i c ^ 2 := by
  simp only [Matrix.trace, Matrix.diag, Matrix.mul_apply, Matrix.diagonal_apply, mul_ite, mul_zero, Finset.sum_ite_eq',
    Finset.mem_univ, if_true, Matrix.transpose_apply]
  rw [Finset.sum_comm]
  refine Finset.sum_congr rfl fun i _ => ?_
  rw [Finset.mul_sum]
  refine Finset.sum_congr rfl fun c _ => by ring

end

/-- The first result, as a number. -/
def val : Except Err (ℝ × List ℝ) → ℝ
  | .ok r => r.1
  | .error _ => 0

/-- The gradient. -/
def grad : Except Err (ℝ × List ℝ) → List ℝ
  | .ok r => r.2
  | .error _ => []

/-- C114, the noise. The last entry of the gradient is the derivative with respect to the last parameter, the logarithm of the noise. -/
theorem c114_noise_partial {e : List ℝ} (he : e.length = D) (s t : ℝ) (X : Data T D) (y : Matrix (Fin T) (Fin m) ℝ) :
    ∃ g, (grad (gpr .matrix [.seard, .noise] (e ++ [s, t]) X y)).getLast? = some g ∧
      HasDerivAt (fun t => val (gpr .matrix [.seard, .noise] (e ++ [s, t]) X y)) g t := by
  obtain ⟨U, l, hl, h1, h2, hM⟩ := spectral (seMat_psd X (fun d => e.getD d.1 0) s)
  set z := U.transpose * y with hz
  set a : Fin T → ℝ := fun i => ∑ c, z i c ^ 2 with ha
  have hval : (fun t => val (gpr .matrix [.seard, .noise] (e ++ [s, t]) X y)) = fun t =>
      1 / 2 * (∑ i, (l i + Real.exp (2 * t))⁻¹ * a i) + m * (1 / 2 * ∑ i, Real.log (l i + Real.exp (2 * t))) +
        1 / 2 * m * T * Real.log (2 * Real.pi) := by
    funext t
    rw [gpr_ok he s t X y (cov_eq _ _ _ _).symm]
    simp only [val]
    rw [shift_inv hl h1 h2 hM (Real.exp_pos _), shift_det h2 hM, Real.log_prod fun i _ => by have := hl i; positivity]
    congr 3
    rw [← trace_diag, hz, Matrix.transpose_mul, Matrix.transpose_transpose]
    simp only [Matrix.mul_assoc]
  refine ⟨_, by rw [gpr_ok he s t X y (cov_eq _ _ _ _).symm]; exact List.getLast?_concat .., ?_⟩
  rw [hval]
  have hpos : ∀ i, l i + Real.exp (2 * t) ≠ 0 := fun i => by have := hl i; positivity
  have hE : HasDerivAt (fun t : ℝ => Real.exp (2 * t)) (Real.exp (2 * t) * 2) t := by
    have := ((hasDerivAt_id t).const_mul 2).exp
    simpa using this
  have hE' : ∀ i, HasDerivAt (fun t : ℝ => l i + Real.exp (2 * t)) (Real.exp (2 * t) * 2) t := fun i => hE.const_add _
  have hS1 := HasDerivAt.fun_sum (u := Finset.univ) fun i (_ : i ∈ Finset.univ) => ((hE' i).inv (hpos i)).mul_const (a i)
  have hS2 := HasDerivAt.fun_sum (u := Finset.univ) fun i (_ : i ∈ Finset.univ) => (hE' i).log (hpos i)
  have hD := ((hS1.const_mul (1 / 2)).add ((hS2.const_mul (1 / 2)).const_mul (m : ℝ))).add_const
    (1 / 2 * m * T * Real.log (2 * Real.pi))
  refine hD.congr_deriv ?_
  have hW : (∑ i, ∑ j, ((m : ℝ) • (seMat X (fun d => e.getD d.1 0) s + Real.exp (2 * t) • 1)⁻¹ -
      (seMat X (fun d => e.getD d.1 0) s + Real.exp (2 * t) • 1)⁻¹ * y *
        ((seMat X (fun d => e.getD d.1 0) s + Real.exp (2 * t) • 1)⁻¹ * y).transpose) i j *
          ((2 * Real.exp (2 * t)) • (1 : Matrix (Fin T) (Fin T) ℝ)) i j) =
      2 * Real.exp (2 * t) * (m * ∑ i, (l i + Real.exp (2 * t))⁻¹ - ∑ i, (l i + Real.exp (2 * t))⁻¹ ^ 2 * a i) := by
    rw [shift_inv hl h1 h2 hM (Real.exp_pos _)]
    set d : Fin T → ℝ := fun i => (l i + Real.exp (2 * t))⁻¹ with hd
    have hsum : ∀ W : Matrix (Fin T) (Fin T) ℝ, ∑ i, ∑ j, W i j * ((2 * Real.exp (2 * t)) • (1 : Matrix (Fin T) (Fin T) ℝ)) i j =
        2 * Real.exp (2 * t) * W.trace := by
      intro W
      simp only [Matrix.smul_apply, Matrix.one_apply, smul_eq_mul, mul_ite, mul_one, mul_zero, Finset.sum_ite_eq, Finset.mem_univ, if_true]
      rw [← Finset.sum_mul, mul_comm]
      rfl
    rw [hsum, Matrix.trace_sub, Matrix.trace_smul, smul_eq_mul]
    have t1 : (U * Matrix.diagonal d * U.transpose).trace = ∑ i, d i := by
      rw [Matrix.trace_mul_comm, ← Matrix.mul_assoc, h1, Matrix.one_mul, Matrix.trace_diagonal]
    have t2 : (U * Matrix.diagonal d * U.transpose * y * (U * Matrix.diagonal d * U.transpose * y).transpose).trace =
        ∑ i, d i ^ 2 * a i := by
      rw [Matrix.trace_mul_comm]
      have : (U * Matrix.diagonal d * U.transpose * y).transpose * (U * Matrix.diagonal d * U.transpose * y) =
          z.transpose * Matrix.diagonal (fun i => d i ^ 2) * z := by
        have e1 : Matrix.diagonal (fun i => d i ^ 2) = Matrix.diagonal d * (U.transpose * U) * Matrix.diagonal d := by
          rw [h1, Matrix.mul_one, Matrix.diagonal_mul_diagonal]
          congr 1
          funext i
          exact sq _
        rw [e1, hz]
        simp only [Matrix.transpose_mul, Matrix.transpose_transpose, Matrix.diagonal_transpose, Matrix.mul_assoc]
      rw [this, trace_diag]
    rw [t1, t2]
  rw [hW]
  simp only [Finset.mul_sum, mul_sub, ← Finset.sum_add_distrib, ← Finset.sum_sub_distrib, Finset.sum_div]
  refine Finset.sum_congr rfl fun i _ => ?_
  have := hpos i
  field_simp
  ring

/-- C114 is false for the other parameters: the code leaves their entries at zero. One row, one input, `y = 0`: the derivative with respect to
the signal is one half, the gradient says zero. -/
theorem c114_false : ∃ g, grad (gpr (T := 1) (D := 1) (m := 1) .matrix [.seard, .noise] [0, 0, 0] (fun _ _ => 0) 0) = [0, 0, g] ∧
    HasDerivAt (fun s => val (gpr (T := 1) (D := 1) (m := 1) .matrix [.seard, .noise] [0, s, 0] (fun _ _ => 0) 0)) (1 / 2) 0 := by
  have h := fun s : ℝ => gpr_ok (T := 1) (D := 1) (m := 1) (e := [0]) rfl s 0 (fun _ _ => 0) 0 rfl
  simp only [List.singleton_append] at h
  refine ⟨_, by rw [h 0]; rfl, ?_⟩
  have hv : (fun s => val (gpr (T := 1) (D := 1) (m := 1) .matrix [.seard, .noise] [0, s, 0] (fun _ _ => 0) 0)) = fun s =>
      1 / 2 * Real.log (Real.exp (2 * s) + 1) + 1 / 2 * Real.log (2 * Real.pi) := by
    funext s
    rw [h s]
    simp [val, Spec.cov]
  rw [hv]
  have hE : HasDerivAt (fun t : ℝ => Real.exp (2 * t)) (Real.exp (2 * 0) * 2) 0 := by
    have := ((hasDerivAt_id (0 : ℝ)).const_mul 2).exp
    simpa using this
  have hp : Real.exp (2 * 0) + 1 ≠ 0 := by positivity
  have := (((hE.add_const 1).log hp).const_mul (1 / 2)).add_const (1 / 2 * Real.log (2 * Real.pi))
  refine this.congr_deriv ?_
  norm_num

/-- The same case for `c114_noise_partial`, `c113_value` and `c113_cov`. -/
example : ∃ g, (grad (gpr (T := 1) (D := 1) (m := 1) .matrix [.seard, .noise] ([0] ++ [0, 0]) (fun _ _ => 0) 0)).getLast? = some g ∧
    HasDerivAt (fun t => val (gpr (T := 1) (D := 1) (m := 1) .matrix [.seard, .noise] ([0] ++ [0, t]) (fun _ _ => 0) 0)) g 0 :=
  c114_noise_partial rfl 0 0 _ _

example : ∃ g, gpr (T := 2) (D := 1) (m := 1) .matrix [.seard, .noise] ([0] ++ [0, 0]) ![![0], ![1]] !![1; 2] =
    .ok (-∑ c, Real.log (Spec.density (Spec.cov (![![0], ![1]] : Data 2 1) (fun d => [(0 : ℝ)].getD d.1 0) 0 0) fun r => !![1; 2] r c), g) :=
  c113_value rfl 0 0 _ _

example : gpr (T := 2) (D := 1) (m := 1) .matrix [.seard, .noise] [0, 0] ![![0], ![1]] !![1; 2] = .error .exception ∧
    gpr (T := 2) (D := 1) (m := 1) .array [.seard, .noise] ([100] ++ [0, 0]) ![![0], ![0]] !![1; 2] = .error .value :=
  ⟨c113_params .matrix (by simp) _ _, c113_array rfl one_pos le_rfl _ _ _ _⟩

/-- `gpr_multi_new` as `minimize` calls it, score_utils.py L187-L190. -/
noncomputable def objOf (X : Data T D) (y : Matrix (Fin T) (Fin m) ℝ) (th : Fin (D + 1 + 1) → ℝ) : Minimize.Ev ℝ (Fin (D + 1 + 1) → ℝ) :=
  match gpr .matrix [.seard, .noise] (List.ofFn th) X y with
  | .ok r => .ok r.1 fun j => r.2.getD j.1 0
  | .error e => .raise e

theorem objOf_ok (X : Data T D) (y : Matrix (Fin T) (Fin m) ℝ) (th : Fin (D + 1 + 1) → ℝ) :
    ∃ v g, objOf X y th = .ok v g ∧ ∀ j : Fin (D + 1), g j.castSucc = 0 := by
  have h : List.ofFn th = List.ofFn (fun j : Fin D => th j.castSucc.castSucc) ++ [th (Fin.last D).castSucc, th (Fin.last (D + 1))] := by
    rw [List.ofFn_succ', List.ofFn_succ']
    simp
  unfold objOf
  rw [h, gpr_ok (by simp) _ _ X y rfl]
  refine ⟨_, _, rfl, fun j => ?_⟩
  simp only [Fin.val_castSucc, List.getD_eq_getElem?_getD]
  rw [List.getElem?_append_left (by rw [List.length_replicate]; exact j.2), List.getElem?_replicate_of_lt j.2]
  rfl

/-- C114, the fit. With this gradient, read as the plain array that it is, `minimize` keeps the starting value of every parameter but the noise,
whatever the data: the length scales and the signal are never fitted. It makes at most 41 evaluations and no line search succeeds. -/
theorem c114_fit (E : Minimize.Env ℝ) (hE : 0 < E.tiny) (X : Data T D) (y : Matrix (Fin T) (Fin m) ℝ) (start : Fin (D + 1 + 1) → ℝ) (length : ℤ) :
    ∃ th f0 i, Minimize.minimize E (objOf X y) .array start length 1 = .ok (th, [f0], i) ∧ i ≤ 41 ∧
      ∀ j : Fin (D + 1), th j.castSucc = start j.castSucc := by
  have hz : ∀ (j : Fin (D + 1)) Y v g, objOf X y Y = .ok v g → g j.castSucc = 0 := by
    intro j Y v g h
    obtain ⟨v', g', h', hg⟩ := objOf_ok X y Y
    rw [h] at h'
    cases h'
    exact hg j
  obtain ⟨f0, df0, h0, -⟩ := objOf_ok X y start
  obtain ⟨Y, i, h1, h2, h3⟩ := Minimize.c107_flat E hE (objOf X y) (hz 0) start length one_pos h0 fun Y e h => by
    obtain ⟨v, g, h', -⟩ := objOf_ok X y Y
    rw [h] at h'
    cases h'
  exact ⟨Y, f0, i, h1, h2, fun j => h3 _ (hz j)⟩

/-- Three rows, one input, the 300 evaluations of the scores. -/
example : ∃ th f0 i, Minimize.minimize ⟨Real.sqrt, 1⟩ (objOf (T := 3) (D := 1) (m := 1) ![![0], ![1], ![3]] !![1; 2; 2]) .array ![0, 0, -1] (-300) 1 =
    .ok (th, [f0], i) ∧ i ≤ 41 ∧ ∀ j : Fin 2, th j.castSucc = ![0, 0, -1] j.castSucc :=
  c114_fit ⟨Real.sqrt, 1⟩ one_pos _ _ _ _

/-! C112. -/

section
variable (target : Matrix (Fin T) (Fin T) ℝ → Target T) (opt : (List ℝ → Except Err (ℝ × List ℝ)) → List ℝ → Except Err (List ℝ))

theorem core_array {Kx : Option (Matrix (Fin T) (Fin T) ℝ)} {a s t : ℝ} {PA : Data T 1} {v : ℝ} :
    core target opt .array Kx PA (some [a, s, t]) ≠ .ok v := by
  unfold core
  by_cases hT : T < 4
  · rw [if_pos hT]; simp
  · rw [if_neg hT]
    cases Kx with
    | none => simp
    | some K =>
      have h := c113_array (e := [a]) rfl one_pos (by omega : 2 ≤ T) s t PA (target (center K)).y
      simp only [List.singleton_append] at h
      simp only [h]
      simp [bind, Except.bind]

/-- C112, no parents. Neither marginal score has a value for a variable without parents, whatever the data. -/
theorem c112_none {v : ℝ} :
    (∀ (data : Data T p) (i : Fin p), generalMarginal target opt data i [] ≠ .ok v) ∧
      ∀ {V : Type} {dim : V → ℕ} (vars : (v : V) → Data T (dim v)) (i : V), multiMarginal target opt vars i [] ≠ .ok v :=
  ⟨fun _ _ => core_array target opt, fun _ _ => core_array target opt⟩

theorem core_value {Kx : Option (Matrix (Fin T) (Fin T) ℝ)} {PA : Data T D} {start : Option (List ℝ)} {v : ℝ} (h : core target opt .matrix Kx PA start = .ok v) :
    ∃ (K : Matrix (Fin T) (Fin T) ℝ) (st e : List ℝ) (s t : ℝ), Kx = some K ∧ start = some st ∧ 4 ≤ T ∧ st.length = D + 2 ∧ e.length = D ∧
      opt (fun lt => gpr .matrix [.seard, .noise] lt PA (target (center K)).y) st = .ok (e ++ [s, t]) ∧
      v = ∑ c, Real.log (Spec.density (Spec.cov PA (fun d => e.getD d.1 0) s t) fun r => (target (center K)).y r c) := by
  unfold core at h
  split at h
  · cases h
  · rename_i hT
    cases Kx with
    | none => cases h
    | some K =>
      cases start with
      | none => cases h
      | some st =>
        dsimp only at h
        generalize hg : (fun lt => gpr .matrix [.seard, .noise] lt PA (target (center K)).y) = obj at h
        have hgg : ∀ lt, gpr .matrix [.seard, .noise] lt PA (target (center K)).y = obj lt := fun lt => congrFun hg lt
        simp only [hgg] at h
        have hobj : ∀ lt r, obj lt = .ok r → ∃ (e : List ℝ) (s t : ℝ), e.length = D ∧ lt = e ++ [s, t] ∧
            r.1 = -∑ c, Real.log (Spec.density (Spec.cov PA (fun d => e.getD d.1 0) s t) fun r => (target (center K)).y r c) := by
          intro lt r hr
          rw [← hg] at hr
          dsimp only at hr
          by_cases hl : lt.length = D + 2
          · have e1 : lt = lt.take D ++ lt.drop D := (List.take_append_drop D lt).symm
            obtain ⟨s, t, e2⟩ := List.length_eq_two.1 (show (lt.drop D).length = 2 by simp [hl])
            rw [e2] at e1
            refine ⟨lt.take D, s, t, by simp [hl], e1, ?_⟩
            obtain ⟨g, hv⟩ := c113_value (e := lt.take D) (by simp [hl]) s t PA (target (center K)).y
            rw [← e1] at hv
            rw [hv] at hr
            cases hr
            rfl
          · rw [c113_params .matrix hl] at hr
            cases hr
        cases h1 : obj st with
        | error e => rw [h1] at h; cases h
        | ok r1 =>
          cases h2 : opt obj st with
          | error e => rw [h1, h2] at h; cases h
          | ok lt =>
            cases h3 : obj lt with
            | error e => simp only [h1, h2, bind, Except.bind, h3] at h; cases h
            | ok r =>
              simp only [h1, h2, bind, Except.bind, h3] at h
              obtain ⟨e, s, t, he, rfl, hr⟩ := hobj _ _ h3
              obtain ⟨e', s', t', he', rfl, -⟩ := hobj _ _ h1
              refine ⟨K, _, e, s, t, rfl, rfl, by omega, by simp [he'], he, by rw [hg]; exact h2, ?_⟩
              rw [← Except.ok.inj h, hr, neg_neg]

/-- C112, the value. With parents a value of the score for several columns is the sum of the logarithms of the densities that a Gaussian process of the parents'
columns gives to the columns made from the centred kernel matrix of the variable; its parameters, one length scale per column, signal and noise, are those that
`minimize` returned. There are then at least four rows and the variable is not constant. -/
theorem c112_value {V : Type} {dim : V → ℕ} (vars : (v : V) → Data T (dim v)) (i : V) {pa : List V} (hp : pa ≠ []) {v : ℝ}
    (h : multiMarginal target opt vars i pa = .ok v) :
    ∃ (K : Matrix (Fin T) (Fin T) ℝ) (st e : List ℝ) (s t : ℝ), kern (5 / 2) 1 (vars i) = some K ∧
      startOf (pa.flatMap fun v => List.replicate (dim v) (width (vars v))) = some st ∧ 4 ≤ T ∧ e.length = (pa.map dim).sum ∧
      opt (fun lt => gpr .matrix [.seard, .noise] lt (colsOf (pa.flatMap fun v => List.ofFn fun c r => vars v r c)) (target (center K)).y) st = .ok (e ++ [s, t]) ∧
      v = ∑ c, Real.log (Spec.density (Spec.cov (colsOf (pa.flatMap fun v => List.ofFn fun c r => vars v r c)) (fun d => e.getD d.1 0) s t)
        fun r => (target (center K)).y r c) := by
  unfold multiMarginal at h
  cases pa with
  | nil => exact absurd rfl hp
  | cons a l =>
    dsimp only at h
    obtain ⟨K, st, e, s, t, h1, h2, h3, h4, h5, h6, h7⟩ := core_value target opt h
    exact ⟨K, st, e, s, t, h1, h2, h3, by rw [h5, List.length_flatMap]; simp, h6, h7⟩

/-- C112, what the general score is. With one parent `j` it is the score of `j` given `j` itself, whatever the variable scored: the line that
takes the column of the variable takes those of the parents. Full statement: the general score of `i` given `pa` is the score of the column
`i` given the columns `pa`, so that of `MultiMarginalScore` with one column per variable. Missing: every case in which `i` is not the only
parent, false by `c112_false`. -/
theorem c112_self_partial (data : Data T p) (i j : Fin p) :
    generalMarginal target opt data i [j] = multiMarginal (dim := fun _ => 1) target opt (col data) j [j] := by
  have h1 : (([j] : List (Fin p)).flatMap fun v => List.ofFn fun (c : Fin 1) r => col data v r c) = [fun r => data r j] := by
    simp [CV.col]
  have h2 : kern (5 / 2) 1 (colsOf ([j].map fun j r => data r j)) = kern (5 / 2) 1 (col data j) := by
    refine kern_scale _ _ one_pos fun r s => ?_
    simp [sqDist, colsOf, CV.col]
  unfold generalMarginal multiMarginal
  simp only
  rw [h1, h2]
  rfl

end

/-- C112 is false: four rows, the first column constant. The score of the first variable given the second does not exist, since its kernel has no
width; the general score has a value, the same as that of the second variable given itself. -/
theorem c112_false (target : Matrix (Fin 4) (Fin 4) ℝ → Target 4) :
    ∃ (data : Data 4 2) (v : ℝ), generalMarginal target (fun _ st => .ok st) data 0 [1] = .ok v ∧
      generalMarginal target (fun _ st => .ok st) data 1 [1] = .ok v ∧
      multiMarginal (dim := fun _ => 1) target (fun _ st => .ok st) (col data) 0 [1] = .error .exception := by
  let data : Data 4 2 := ![![7, 0], ![7, 1], ![7, 2], ![7, 3]]
  have hne : ¬ ∀ r s, col data 1 r = col data 1 s := fun h => by
    have := congrFun (h 0 1) 0
    simp [CV.col, data] at this
  have hk : kern (5 / 2) 1 (col data 1) ≠ none := fun h => hne (kern_none.1 h)
  have hw : width (col data 1) ≠ none := by
    intro h
    rw [width, Option.map_eq_none_iff] at h
    refine hk ?_
    rw [kern, h]
    rfl
  obtain ⟨K, hK⟩ := Option.ne_none_iff_exists'.1 hk
  obtain ⟨w, hw⟩ := Option.ne_none_iff_exists'.1 hw
  have hS : ∃ v, multiMarginal (dim := fun _ => 1) target (fun _ st => .ok st) (col data) 1 [1] = .ok v := by
    obtain ⟨g, hg⟩ := c113_value (e := [Real.log w]) (D := 1) rfl 0 (Real.log (Real.sqrt (1 / 10)))
      (colsOf [fun r => data r 1]) (target (center K)).y
    have h1 : (([1] : List (Fin 2)).flatMap fun v => List.ofFn fun (c : Fin 1) r => col data v r c) = [fun r => data r 1] := by
      simp [CV.col]
    unfold multiMarginal
    simp only [List.flatMap_singleton, List.replicate_one, startOf, hw, allSome, Option.map_some]
    rw [h1]
    unfold core
    rw [if_neg (by omega), hK]
    simp only [List.map_cons, List.map_nil]
    have hg' : gpr (D := [fun r => data r 1].length) .matrix [.seard, .noise] ([Real.log w] ++ [0, Real.log (Real.sqrt (1 / 10))])
      (colsOf [fun r => data r 1]) (target (center K)).y = _ := hg
    rw [hg']
    simp only [bind, Except.bind]
    rw [hg']
    exact ⟨_, rfl⟩
  obtain ⟨v, hv⟩ := hS
  refine ⟨data, v, (c112_self_partial target _ data 0 1).trans hv, (c112_self_partial target _ data 1 1).trans hv, ?_⟩
  have hc : kern (5 / 2) 1 (col data 0) = none := kern_none.2 fun r s => by
    funext c
    fin_cases r <;> fin_cases s <;> rfl
  unfold multiMarginal
  simp only [hc]
  unfold core
  rw [if_neg (by omega)]

/-- A target and an optimiser for the hypotheses above. -/
example : ∃ (data : Data 4 2) (v : ℝ), generalMarginal (fun K => ⟨4, K⟩) (fun _ st => .ok st) data 0 [1] = .ok v ∧
    generalMarginal (fun K => ⟨4, K⟩) (fun _ st => .ok st) data 0 [] ≠ .ok v := by
  obtain ⟨data, v, h, -⟩ := c112_false fun K => ⟨4, K⟩
  exact ⟨data, v, h, (c112_none _ _).1 data 0⟩

/-- There is a score of a variable given itself, and it is as `c112_value` says. -/
example : ∃ (data : Data 4 2) (K : Matrix (Fin 4) (Fin 4) ℝ) (v : ℝ), kern (5 / 2) 1 (col data 1) = some K ∧
    multiMarginal (dim := fun _ => 1) (fun K => ⟨4, K⟩) (fun _ st => .ok st) (col data) 1 [1] = .ok v := by
  obtain ⟨data, v, -, h, -⟩ := c112_false fun K => ⟨4, K⟩
  rw [c112_self_partial] at h
  obtain ⟨K, st, e, s, t, h1, -⟩ := c112_value _ _ _ _ (List.cons_ne_nil _ _) h
  exact ⟨data, K, v, h1, h⟩

end Cdmir.Gpr
