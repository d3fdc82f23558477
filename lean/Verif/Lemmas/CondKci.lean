import Verif.Model.CondKci
import Verif.Lemmas.KernelTest
import Verif.Props.Kci
import Mathlib.Analysis.Matrix.Spectrum
import Mathlib.Analysis.Matrix.PosDef

/-! Lemmas about the conditional kernel test: what is computed from the eigenvalues and eigenvectors does not depend on their choice. -/

namespace Cdmir.KTest
open BigOperators

variable {n d e f : Nat}

/-- `w` are the eigenvalues and the columns of `V` an orthonormal basis of eigenvectors of `K`. -/
def IsEigen (K : Matrix (Fin n) (Fin n) ℝ) (w : Fin n → ℝ) (V : Matrix (Fin n) (Fin n) ℝ) : Prop :=
  V.transpose * V = 1 ∧ V * Matrix.diagonal w * V.transpose = K

/-- What is assumed of `eigh` and `argsort`. -/
structure Eig.Correct (E : Eig n) : Prop where
  eigh : ∀ K : Matrix (Fin n) (Fin n) ℝ, K.transpose = K → IsEigen K (E.eigh K).1 (E.eigh K).2
  perm : ∀ w, (E.order w).Perm (List.finRange n)
  sorted : ∀ w, (E.order w).Pairwise fun i j => w j ≤ w i

/-- The entries, the largest first. -/
noncomputable def orderOf (w : Fin n → ℝ) : List (Fin n) := (List.finRange n).insertionSort fun i j => w j ≤ w i

theorem exists_eigen (K : Matrix (Fin n) (Fin n) ℝ) (h : K.transpose = K) : ∃ w V, IsEigen K w V := by
  have hK : K.IsHermitian := by
    rw [Matrix.IsHermitian, Matrix.conjTranspose_eq_transpose_of_trivial, h]
  have hU := hK.eigenvectorUnitary.2
  have hs := hK.spectral_theorem
  rw [Unitary.conjStarAlgAut_apply] at hs
  refine ⟨hK.eigenvalues, hK.eigenvectorUnitary.1, ?_, ?_⟩
  · have := Unitary.mem_iff.1 hU |>.1
    rwa [Matrix.star_eq_conjTranspose, Matrix.conjTranspose_eq_transpose_of_trivial] at this
  · conv_rhs => rw [hs]
    rw [Matrix.star_eq_conjTranspose, Matrix.conjTranspose_eq_transpose_of_trivial]
    rfl

/-- A choice of eigenvalues and eigenvectors, to show that the assumptions can be met. -/
noncomputable def stdEig (n : Nat) : Eig n where
  eigh K := if h : K.transpose = K then ((exists_eigen K h).choose, (exists_eigen K h).choose_spec.choose) else (0, 0)
  order := orderOf

theorem stdEig_correct (n : Nat) : (stdEig n).Correct := by
  refine ⟨fun K h => ?_, fun w => List.perm_insertionSort _ _, fun w => ?_⟩
  · simp only [stdEig, dif_pos h]
    exact (exists_eigen K h).choose_spec.choose_spec
  · have : Std.Total fun i j : Fin n => w j ≤ w i := ⟨fun i j => le_total _ _⟩
    have : IsTrans (Fin n) fun i j => w j ≤ w i := ⟨fun i j k h1 h2 => le_trans h2 h1⟩
    exact List.pairwise_insertionSort _ _

theorem IsEigen.right {K : Matrix (Fin n) (Fin n) ℝ} {w V} (h : IsEigen K w V) : V * V.transpose = 1 := mul_eq_one_comm.1 h.1

/-- Two choices of eigenvalues and eigenvectors are intertwined. -/
theorem IsEigen.twine {K : Matrix (Fin n) (Fin n) ℝ} {w V w' V'} (h : IsEigen K w V) (h' : IsEigen K w' V') (i j : Fin n) :
    w' i * (V'.transpose * V) i j = (V'.transpose * V) i j * w j := by
  have h1 : V'.transpose * K * V = Matrix.diagonal w' * (V'.transpose * V) := by
    rw [← h'.2]
    calc V'.transpose * (V' * Matrix.diagonal w' * V'.transpose) * V = (V'.transpose * V') * Matrix.diagonal w' * V'.transpose * V := by
          simp only [Matrix.mul_assoc]
      _ = _ := by rw [h'.1, Matrix.one_mul, Matrix.mul_assoc]
  have h2 : V'.transpose * K * V = (V'.transpose * V) * Matrix.diagonal w := by
    rw [← h.2]
    calc V'.transpose * (V * Matrix.diagonal w * V.transpose) * V = V'.transpose * V * Matrix.diagonal w * (V.transpose * V) := by
          simp only [Matrix.mul_assoc]
      _ = _ := by rw [h.1, Matrix.mul_one]
  have := congrFun (congrFun (h1.symm.trans h2) i) j
  rwa [Matrix.diagonal_mul, Matrix.mul_diagonal] at this

/-- A function of the eigenvalues gives a matrix that does not depend on the choice. -/
theorem IsEigen.apply_unique {K : Matrix (Fin n) (Fin n) ℝ} {w V w' V'} (h : IsEigen K w V) (h' : IsEigen K w' V') (g : ℝ → ℝ) :
    V * Matrix.diagonal (fun i => g (w i)) * V.transpose = V' * Matrix.diagonal (fun i => g (w' i)) * V'.transpose := by
  have key : Matrix.diagonal (fun i => g (w' i)) * (V'.transpose * V) = (V'.transpose * V) * Matrix.diagonal (fun i => g (w i)) := by
    ext i j
    rw [Matrix.diagonal_mul, Matrix.mul_diagonal]
    have ht := h.twine h' i j
    by_cases hz : (V'.transpose * V) i j = 0
    · rw [hz]; ring
    · have : w' i = w j := by
        rw [mul_comm] at ht
        exact mul_left_cancel₀ hz ht
      rw [this]; ring
  calc V * Matrix.diagonal (fun i => g (w i)) * V.transpose
      = (V' * V'.transpose) * V * Matrix.diagonal (fun i => g (w i)) * V.transpose := by rw [h'.right, Matrix.one_mul]
    _ = V' * ((V'.transpose * V) * Matrix.diagonal (fun i => g (w i))) * V.transpose := by simp only [Matrix.mul_assoc]
    _ = V' * Matrix.diagonal (fun i => g (w' i)) * V'.transpose * (V * V.transpose) := by rw [← key]; simp only [Matrix.mul_assoc]
    _ = _ := by rw [h.right, Matrix.mul_one]

/-- The eigenvalues are the same in every choice. -/
theorem IsEigen.range {K : Matrix (Fin n) (Fin n) ℝ} {w V w' V'} (h : IsEigen K w V) (h' : IsEigen K w' V') (i : Fin n) : ∃ j, w j = w' i := by
  by_contra hc
  push Not at hc
  have hz : ∀ j, (V'.transpose * V) i j = 0 := by
    intro j
    by_contra hz
    have ht := h.twine h' i j
    rw [mul_comm] at ht
    exact hc j (mul_left_cancel₀ hz ht).symm
  have h1 : (V'.transpose * V) * (V'.transpose * V).transpose = 1 := by
    rw [Matrix.transpose_mul, Matrix.transpose_transpose]
    calc V'.transpose * V * (V.transpose * V') = V'.transpose * (V * V.transpose) * V' := by simp only [Matrix.mul_assoc]
      _ = 1 := by rw [h.right, Matrix.mul_one, h'.1]
  have h2 := congrFun (congrFun h1 i) i
  rw [Matrix.mul_apply, Matrix.one_apply_eq, Finset.sum_eq_zero fun j _ => by rw [hz j, zero_mul]] at h2
  exact zero_ne_one h2

/-- `m` is the largest entry. -/
def IsTop (w : Fin n → ℝ) (m : ℝ) : Prop := (∃ i, w i = m) ∧ ∀ i, w i ≤ m

theorem IsTop.unique {K : Matrix (Fin n) (Fin n) ℝ} {w V w' V' m m'} (h : IsEigen K w V) (h' : IsEigen K w' V') (hm : IsTop w m)
    (hm' : IsTop w' m') : m = m' := by
  obtain ⟨⟨i, rfl⟩, h1⟩ := hm
  obtain ⟨⟨j, rfl⟩, h2⟩ := hm'
  obtain ⟨a, ha⟩ := h'.range h i
  obtain ⟨b, hb⟩ := h.range h' j
  refine le_antisymm ?_ ?_
  · rw [← ha]; exact h2 a
  · rw [← hb]; exact h1 b

/-- `T` is `K` without the part of the eigenvalues up to the largest one times `thr`. -/
def IsCut (thr : ℝ) (K T : Matrix (Fin n) (Fin n) ℝ) : Prop :=
  ∃ w V m, IsEigen K w V ∧ IsTop w m ∧ T = V * Matrix.diagonal (fun i => if m * thr < w i then w i else 0) * V.transpose

theorem IsCut.unique {thr : ℝ} {K T T' : Matrix (Fin n) (Fin n) ℝ} (h : IsCut thr K T) (h' : IsCut thr K T') : T = T' := by
  obtain ⟨w, V, m, h1, h2, rfl⟩ := h
  obtain ⟨w', V', m', h1', h2', rfl⟩ := h'
  obtain rfl := h2.unique h1 h1' h2'
  exact h1.apply_unique h1' fun x => if m * thr < x then x else 0

theorem eigen_nonneg {K : Matrix (Fin n) (Fin n) ℝ} (hK : K.PosSemidef) {w V} (h : IsEigen K w V) (i : Fin n) : 0 ≤ w i := by
  have h1 := hK.conjTranspose_mul_mul_same V
  rw [Matrix.conjTranspose_eq_transpose_of_trivial, ← h.2] at h1
  have h2 : V.transpose * (V * Matrix.diagonal w * V.transpose) * V = Matrix.diagonal w := by
    calc V.transpose * (V * Matrix.diagonal w * V.transpose) * V = (V.transpose * V) * Matrix.diagonal w * (V.transpose * V) := by
          simp only [Matrix.mul_assoc]
      _ = _ := by rw [h.1, Matrix.one_mul, Matrix.mul_one]
  rw [h2] at h1
  have := h1.diag_nonneg (i := i)
  simpa using this

/-- `np.max` of a list. -/
theorem npMax_ok {l : List ℝ} {m : ℝ} (h : npMax l = .ok m) : m ∈ l ∧ ∀ x ∈ l, x ≤ m := by
  cases l with
  | nil => cases h
  | cons a l =>
    simp only [npMax, Except.ok.injEq] at h
    subst h
    induction l generalizing a with
    | nil => simp
    | cons b l ih =>
      obtain ⟨h1, h2⟩ := ih (max a b)
      simp only [List.foldl_cons]
      constructor
      · rcases List.mem_cons.1 h1 with h | h
        · rw [h]
          rcases max_choice a b with h' | h' <;> rw [h'] <;> simp
        · exact List.mem_cons_of_mem _ (List.mem_cons_of_mem _ h)
      · intro x hx
        have h3 := h2 (max a b) List.mem_cons_self
        rcases List.mem_cons.1 hx with rfl | hx
        · exact (le_max_left _ _).trans h3
        · rcases List.mem_cons.1 hx with rfl | hx
          · exact (le_max_right _ _).trans h3
          · exact h2 x (List.mem_cons_of_mem _ hx)

theorem npMax_some {l : List ℝ} (h : l ≠ []) : ∃ m, npMax l = .ok m := by
  cases l with
  | nil => exact absurd rfl h
  | cons a l => exact ⟨_, rfl⟩

/-- The sum of the products of the entries of columns. -/
def gram (u : List (Fin n → ℝ)) : Matrix (Fin n) (Fin n) ℝ := fun s t => (u.map fun c => c s * c t).sum

theorem gram_uuCols (vx vy : List (Fin n → ℝ)) (s t : Fin n) : gram (uuCols vx vy) s t = gram vx s t * gram vy s t := by
  unfold gram uuCols
  induction vx with
  | nil => simp
  | cons a l ih =>
    rw [List.flatMap_cons, List.map_append, List.sum_append, ih, List.map_cons, List.sum_cons, add_mul, List.map_map]
    congr 1
    rw [← List.sum_map_mul_left]
    congr 1
    refine List.map_congr_left fun b _ => ?_
    simp only [Function.comp]
    ring

theorem uuCols_length (vx vy : List (Fin n → ℝ)) : (uuCols vx vy).length = vx.length * vy.length := by
  induction vx with
  | nil => simp [uuCols]
  | cons a l ih =>
    have : uuCols (a :: l) vy = (vy.map fun b t => a t * b t) ++ uuCols l vy := rfl
    rw [this, List.length_append, ih, List.length_map, List.length_cons]
    ring

/-- The columns as a matrix. -/
def colMat (u : List (Fin n → ℝ)) : Matrix (Fin n) (Fin u.length) ℝ := fun t i => u.get i t

theorem gram_eq (u : List (Fin n → ℝ)) : gram u = colMat u * (colMat u).transpose := by
  ext s t
  rw [Matrix.mul_apply]
  simp only [gram, colMat, Matrix.transpose_apply]
  rw [← List.sum_ofFn]
  congr 1
  conv_lhs => rw [← List.ofFn_get u, List.map_ofFn]
  rfl

theorem uuProd_trace (u : List (Fin n → ℝ)) : (uuProd u).2.trace = (gram u).trace ∧
    ((uuProd u).2 * (uuProd u).2).trace = (gram u * gram u).trace := by
  by_cases hc : n < u.length
  · have h : uuProd u = ⟨n, gram u⟩ := if_pos hc
    rw [h]
    exact ⟨rfl, rfl⟩
  · have h : uuProd u = ⟨u.length, (colMat u).transpose * colMat u⟩ := by
      refine (if_neg hc).trans ?_
      congr 1
    rw [h, gram_eq]
    constructor
    · rw [Matrix.trace_mul_comm]
    · rw [Matrix.mul_assoc, Matrix.trace_mul_comm]
      simp only [Matrix.mul_assoc]

theorem symm_half {K : Matrix (Fin n) (Fin n) ℝ} (h : K.transpose = K) : (1 / 2 : ℝ) • (K + K.transpose) = K := by
  rw [h]
  ext i j
  simp only [Matrix.smul_apply, Matrix.add_apply, smul_eq_mul]
  ring

theorem psd_transpose {K : Matrix (Fin n) (Fin n) ℝ} (h : K.PosSemidef) : K.transpose = K := by
  have := h.isHermitian
  rwa [Matrix.IsHermitian, Matrix.conjTranspose_eq_transpose_of_trivial] at this

theorem sum_finRange (g : Fin n → ℝ) {l : List (Fin n)} (h : l.Perm (List.finRange n)) : (l.map g).sum = ∑ i, g i := by
  rw [(h.map g).sum_eq, ← List.ofFn_eq_map, List.sum_ofFn]

theorem sum_filter_ite {α : Type*} (l : List α) (q : α → Prop) [DecidablePred q] (g : α → ℝ) :
    ((l.filter fun x => decide (q x)).map g).sum = (l.map fun x => if q x then g x else 0).sum := by
  induction l with
  | nil => rfl
  | cons a l ih =>
    by_cases h : q a
    · simp [h, ih]
    · simp [h, ih]

/-- The kept columns: their products give the cut matrix. -/
theorem scaledCols_cut {E : Eig n} (hE : E.Correct) (hn : n ≠ 0) {thr : ℝ} {K : Matrix (Fin n) (Fin n) ℝ} (hK : K.PosSemidef) :
    ∃ c, scaledCols E thr K = .ok c ∧ IsCut thr K (gram c) := by
  have hs := psd_transpose hK
  have he := hE.eigh K hs
  have hp := hE.perm (E.eigh K).1
  obtain ⟨w, V, hwv⟩ : ∃ w V, E.eigh K = (w, V) := ⟨_, _, rfl⟩
  rw [hwv] at he hp
  have hpairs : sortedPairs E K = (E.order w).map fun i => (w i, fun t => V t i) := by
    simp only [sortedPairs, symm_half hs, hwv]
  have hfst : (sortedPairs E K).map Prod.fst = (E.order w).map w := by rw [hpairs, List.map_map]; rfl
  have hne : (E.order w).map w ≠ [] := by
    intro h
    have h1 := congrArg List.length h
    rw [List.length_map, hp.length_eq, List.length_finRange] at h1
    exact hn h1
  obtain ⟨m, hm⟩ := npMax_some hne
  have htop : IsTop w m := by
    obtain ⟨h1, h2⟩ := npMax_ok hm
    obtain ⟨i, _, hi⟩ := List.mem_map.1 h1
    exact ⟨⟨i, hi⟩, fun j => h2 _ (List.mem_map.2 ⟨j, hp.mem_iff.2 (List.mem_finRange j), rfl⟩)⟩
  refine ⟨_, by simp only [scaledCols, keepLarge, hfst, hm]; rfl, w, V, m, he, htop, ?_⟩
  ext s t
  rw [Matrix.mul_apply]
  simp only [Matrix.mul_diagonal, Matrix.transpose_apply, gram, List.map_map, Function.comp_def]
  rw [sum_filter_ite, hpairs, List.map_map]
  simp only [Function.comp_def]
  rw [sum_finRange _ hp]
  refine Finset.sum_congr rfl fun i _ => ?_
  by_cases h : m * thr < w i
  · simp only [if_pos h]
    have h0 : 0 ≤ w i := eigen_nonneg hK he i
    have := Real.mul_self_sqrt h0
    calc V s i * Real.sqrt (w i) * (V t i * Real.sqrt (w i)) = V s i * (Real.sqrt (w i) * Real.sqrt (w i)) * V t i := by ring
      _ = _ := by rw [this]
  · simp only [if_neg h]
    ring

/-- What is assumed of `pinv`: the inverse of an invertible matrix. -/
def PinvCorrect (pinv : Matrix (Fin n) (Fin n) ℝ → Matrix (Fin n) (Fin n) ℝ) : Prop := ∀ M : Matrix (Fin n) (Fin n) ℝ, IsUnit M.det → pinv M = M⁻¹

/-- The residual of the kernel ridge regression: `1 - Kz (Kz + eps)⁻¹`. -/
noncomputable def resid (Kz : Matrix (Fin n) (Fin n) ℝ) (eps : ℝ) : Matrix (Fin n) (Fin n) ℝ := 1 - Kz * (Kz + eps • 1)⁻¹

theorem ridge_unit {Kz : Matrix (Fin n) (Fin n) ℝ} (hz : Kz.PosSemidef) {eps : ℝ} (he : 0 < eps) : IsUnit (Kz + eps • 1).det := by
  have h1 : (eps • 1 : Matrix (Fin n) (Fin n) ℝ).PosDef := Matrix.PosDef.one.smul he
  exact (Matrix.isUnit_iff_isUnit_det _).1 (Matrix.PosDef.posSemidef_add hz h1).isUnit

theorem regression_eq {pinv : Matrix (Fin n) (Fin n) ℝ → Matrix (Fin n) (Fin n) ℝ} (hp : PinvCorrect pinv) (K : Matrix (Fin n) (Fin n) ℝ)
    {Kz : Matrix (Fin n) (Fin n) ℝ} (hz : Kz.PosSemidef) {eps : ℝ} (he : 0 < eps) :
    centerRegression pinv K Kz eps = (resid Kz eps * K * resid Kz eps, resid Kz eps) := by
  have hu := ridge_unit hz he
  have hR : eps • pinv (Kz + eps • 1) = resid Kz eps := by
    rw [hp _ hu, resid, eq_sub_iff_add_eq]
    calc eps • (Kz + eps • 1)⁻¹ + Kz * (Kz + eps • 1)⁻¹ = (Kz + eps • 1) * (Kz + eps • 1)⁻¹ := by
          rw [Matrix.add_mul, Matrix.smul_mul, Matrix.one_mul, add_comm]
      _ = 1 := Matrix.mul_nonsing_inv _ hu
  simp only [centerRegression, hR, Matrix.mul_assoc]

theorem resid_symm {Kz : Matrix (Fin n) (Fin n) ℝ} (hz : Kz.PosSemidef) {eps : ℝ} (he : 0 < eps) : (resid Kz eps).conjTranspose = resid Kz eps := by
  have hu := ridge_unit hz he
  have hR : resid Kz eps = eps • (Kz + eps • 1)⁻¹ := by
    rw [resid, sub_eq_iff_eq_add]
    symm
    calc eps • (Kz + eps • 1)⁻¹ + Kz * (Kz + eps • 1)⁻¹ = (Kz + eps • 1) * (Kz + eps • 1)⁻¹ := by
          rw [Matrix.add_mul, Matrix.smul_mul, Matrix.one_mul, add_comm]
      _ = 1 := Matrix.mul_nonsing_inv _ hu
  rw [hR, Matrix.conjTranspose_eq_transpose_of_trivial, Matrix.transpose_smul, Matrix.transpose_nonsing_inv, Matrix.transpose_add,
    Matrix.transpose_smul, Matrix.transpose_one, psd_transpose hz]

theorem resid_psd {K Kz : Matrix (Fin n) (Fin n) ℝ} (hK : K.PosSemidef) (hz : Kz.PosSemidef) {eps : ℝ} (he : 0 < eps) :
    (resid Kz eps * K * resid Kz eps).PosSemidef := by
  have := hK.mul_mul_conjTranspose_same (resid Kz eps)
  rwa [resid_symm hz he] at this

theorem gauss_eq (w : ℝ) (X : Data n d) : centerKernelMatrix (gaussianWidth w X) = center (gaussianWidth w X) :=
  centerKernelMatrix_eq (gaussianWidth_symm _ _)

theorem kernel_psd {w : ℝ} (hw : 0 ≤ w) (X : Data n d) : (centerKernelMatrix (gaussianWidth w X)).PosSemidef := by
  rw [gauss_eq]
  exact center_psd (gaussianWidth_psd hw X)

/-- The statistic and the residual kernels in the mode with a given kernel. -/
theorem ckciStat_kernel {pinv : Matrix (Fin n) (Fin n) ℝ → Matrix (Fin n) (Fin n) ℝ} (hp : PinvCorrect pinv) (E : Eig n) {wz epsx epsy : ℝ}
    (hwz : 0 ≤ wz) (hx : 0 < epsx) (hy : 0 < epsy) (thr wx wy : ℝ) (X : Data n d) (Y : Data n e) (Z : Data n f) :
    ckciStat E pinv (.kernel wz epsx epsy) thr wx wy X Y Z =
      let Kz := center (gaussianWidth wz (standardise Z))
      let A := resid Kz epsx * center (gaussianWidth wx (joint X Z)) * resid Kz epsx
      let B := resid Kz epsy * center (gaussianWidth wy (standardise Y)) * resid Kz epsy
      .ok (hsicStat A B, A, B) := by
  have hz := center_psd (gaussianWidth_psd hwz (standardise Z))
  simp only [ckciStat, gauss_eq, regression_eq hp _ hz hx, regression_eq hp _ hz hy]
  by_cases h : epsx = epsy
  · subst h
    simp only [ne_eq, not_true_eq_false, if_false, Matrix.mul_assoc]
    rfl
  · rw [if_pos h]
    rfl

/-- What is assumed of the fit of the Gaussian process. -/
def GpCorrect (gp : ℝ → Data n f → List (Fin n → ℝ) → Matrix (Fin n) (Fin n) ℝ × ℝ) : Prop :=
  ∀ w Z T, (gp w Z T).1.PosSemidef ∧ 0 < (gp w Z T).2

/-- What is assumed of the kernel of the condition. -/
def ZMode.Correct : ZMode n f → Prop
  | .kernel wz epsx epsy => 0 ≤ wz ∧ 0 < epsx ∧ 0 < epsy
  | .process gp => GpCorrect gp

theorem bind_ok {α β : Type} {x : Except Err α} {g : α → Except Err β} {b : β} (h : (x >>= g) = .ok b) : ∃ a, x = .ok a ∧ g a = .ok b := by
  cases x with
  | error e => cases h
  | ok a => exact ⟨a, rfl, h⟩

theorem kernelForZ_ok {E : Eig n} {gp : ℝ → Data n f → List (Fin n → ℝ) → Matrix (Fin n) (Fin n) ℝ × ℝ} (hg : GpCorrect gp) {thr w : ℝ} {cols : Nat}
    {K : Matrix (Fin n) (Fin n) ℝ} {Z : Data n f} {r} (h : kernelForZ E gp thr w cols K Z = .ok r) : r.1.PosSemidef ∧ 0 < r.2 := by
  obtain ⟨l, _, h⟩ := bind_ok h
  cases l with
  | nil => cases h
  | cons p l =>
    simp only [pure, Except.pure, Except.ok.injEq] at h
    subst h
    exact hg _ _ _

/-- The residual kernels are positive semidefinite and the statistic is the sum of the products of their entries. -/
theorem ckciStat_ok {pinv : Matrix (Fin n) (Fin n) ℝ → Matrix (Fin n) (Fin n) ℝ} (hp : PinvCorrect pinv) {E : Eig n} {mode : ZMode n f}
    (hm : mode.Correct) {thr wx wy : ℝ} (hx : 0 ≤ wx) (hy : 0 ≤ wy) {X : Data n d} {Y : Data n e} {Z : Data n f} {r}
    (h : ckciStat E pinv mode thr wx wy X Y Z = .ok r) : r.1 = hsicStat r.2.1 r.2.2 ∧ r.2.1.PosSemidef ∧ r.2.2.PosSemidef := by
  cases mode with
  | kernel wz epsx epsy =>
    obtain ⟨h1, h2, h3⟩ := hm
    rw [ckciStat_kernel hp E h1 h2 h3] at h
    simp only [Except.ok.injEq] at h
    subst h
    have hz := center_psd (gaussianWidth_psd h1 (standardise Z))
    exact ⟨rfl, resid_psd (center_psd (gaussianWidth_psd hx _)) hz h2, resid_psd (center_psd (gaussianWidth_psd hy _)) hz h3⟩
  | process gp =>
    simp only [ckciStat] at h
    obtain ⟨zx, hzx, h⟩ := bind_ok h
    obtain ⟨zy, hzy, h⟩ := bind_ok h
    obtain ⟨a, b⟩ := kernelForZ_ok hm hzx
    obtain ⟨a', b'⟩ := kernelForZ_ok hm hzy
    simp only [pure, Except.pure, Except.ok.injEq, regression_eq hp _ a b, regression_eq hp _ a' b'] at h
    subst h
    exact ⟨rfl, resid_psd (kernel_psd hx _) a b, resid_psd (kernel_psd hy _) a' b'⟩

theorem IsCut.psd {thr : ℝ} {K T : Matrix (Fin n) (Fin n) ℝ} (hK : K.PosSemidef) (h : IsCut thr K T) : T.PosSemidef := by
  obtain ⟨w, V, m, h1, _, rfl⟩ := h
  have hd : (Matrix.diagonal fun i => if m * thr < w i then w i else 0 : Matrix (Fin n) (Fin n) ℝ).PosSemidef := by
    refine Matrix.PosSemidef.diagonal fun i => ?_
    by_cases h : m * thr < w i
    · simp only [if_pos h]; exact eigen_nonneg hK h1 i
    · simp only [if_neg h]; exact le_refl _
  have := hd.mul_mul_conjTranspose_same V
  rwa [Matrix.conjTranspose_eq_transpose_of_trivial] at this

/-- The product of the eigenvectors: its trace and the trace of its square. -/
theorem getUuprod_ok {E : Eig n} (hE : E.Correct) (hn : n ≠ 0) {thr : ℝ} {A B : Matrix (Fin n) (Fin n) ℝ} (hA : A.PosSemidef) (hB : B.PosSemidef) :
    ∃ u S T, getUuprod E thr A B = .ok u ∧ IsCut thr A S ∧ IsCut thr B T ∧ u.1.2.trace = ∑ t, S t t * T t t ∧
      (u.1.2 * u.1.2).trace = ∑ s, ∑ t, (S s t * T s t) ^ 2 := by
  obtain ⟨cx, h1, h2⟩ := scaledCols_cut hE hn (thr := thr) hA
  obtain ⟨cy, h3, h4⟩ := scaledCols_cut hE hn (thr := thr) hB
  refine ⟨(uuProd (uuCols cx cy), cx.length * cy.length), gram cx, gram cy, by simp only [getUuprod, h1, h3]; rfl, h2, h4, ?_, ?_⟩
  · rw [(uuProd_trace _).1]
    exact Finset.sum_congr rfl fun t _ => gram_uuCols _ _ _ _
  · rw [(uuProd_trace _).2, Matrix.trace]
    refine Finset.sum_congr rfl fun s _ => ?_
    rw [Matrix.diag_apply, Matrix.mul_apply]
    refine Finset.sum_congr rfl fun t _ => ?_
    rw [gram_uuCols, gram_uuCols, psd_symm (h2.psd hA) t s, psd_symm (h4.psd hB) t s, sq]

end Cdmir.KTest
