import Verif.Props.CondKci

/-! C128, C129, C130: symmetry of the conditional kernel test, the data for which it returns, and the non-approximate mode. -/

namespace Cdmir.KTest
open BigOperators

variable {n d e f : Nat}

theorem resid_zero {K Kz : Matrix (Fin n) (Fin n) ℝ} (hz : Kz.PosSemidef) {eps : ℝ} (he : 0 < eps) :
    resid Kz eps * K * resid Kz eps = 0 ↔ K = 0 := by
  constructor
  · intro h
    have hu := ridge_unit hz he
    have hr : resid Kz eps * (Kz + eps • 1) = eps • 1 := by
      rw [resid, Matrix.sub_mul, Matrix.one_mul, Matrix.mul_assoc, Matrix.nonsing_inv_mul _ hu, Matrix.mul_one, add_sub_cancel_left]
    have hl : (Kz + eps • 1) * resid Kz eps = eps • 1 := by
      have := congrArg Matrix.conjTranspose hr
      rw [Matrix.conjTranspose_mul, resid_symm hz he, Matrix.conjTranspose_eq_transpose_of_trivial, Matrix.conjTranspose_eq_transpose_of_trivial,
        Matrix.transpose_smul, Matrix.transpose_one, Matrix.transpose_add, Matrix.transpose_smul, Matrix.transpose_one, psd_transpose hz] at this
      exact this
    have h1 : (Kz + eps • 1) * (resid Kz eps * K * resid Kz eps) * (Kz + eps • 1) = (eps * eps) • K := by
      calc (Kz + eps • 1) * (resid Kz eps * K * resid Kz eps) * (Kz + eps • 1)
          = ((Kz + eps • 1) * resid Kz eps) * K * (resid Kz eps * (Kz + eps • 1)) := by simp only [Matrix.mul_assoc]
        _ = _ := by rw [hl, hr, Matrix.smul_mul, Matrix.one_mul, Matrix.smul_mul, Matrix.mul_smul, Matrix.mul_one, smul_smul]
    rw [h, Matrix.mul_zero, Matrix.zero_mul] at h1
    have := (smul_eq_zero.1 h1.symm).resolve_left (mul_ne_zero he.ne' he.ne')
    exact this
  · rintro rfl
    rw [Matrix.mul_zero, Matrix.zero_mul]

theorem joint_inj (X : Data n d) (Z : Data n f) (i j : Fin n) : joint X Z i = joint X Z j ↔ X i = X j ∧ Z i = Z j := by
  rw [← standardise_inj X, ← standardise_inj Z, ← sqDist_eq_zero, ← sqDist_eq_zero, ← sqDist_eq_zero, joint_dist]
  have h1 : 0 ≤ sqDist (standardise X) i j := Finset.sum_nonneg fun _ _ => sq_nonneg _
  have h2 : 0 ≤ sqDist (standardise Z) i j := Finset.sum_nonneg fun _ _ => sq_nonneg _
  constructor
  · intro h
    constructor <;> linarith
  · rintro ⟨a, b⟩
    rw [a, b]
    ring

theorem gauss_center_zero' (hn : n ≠ 0) {w : ℝ} (hw : 0 < w) (X : Data n d) : center (gaussianWidth w X) = 0 ↔ ∀ i j, X i = X j := by
  rw [center_zero hn (gaussianWidth_symm _ _) (fun i => by simp [gaussianWidth, sqDist_self])]
  refine forall_congr' fun i => forall_congr' fun j => ?_
  rw [← sqDist_eq_zero]
  simp only [gaussianWidth, Real.exp_eq_one_iff]
  constructor
  · intro h
    have : sqDist X i j * w = 0 := by linarith
    exact (mul_eq_zero.1 this).resolve_right hw.ne'
  · intro h
    rw [h]
    ring

theorem cut_of_zero {thr : ℝ} {T : Matrix (Fin n) (Fin n) ℝ} (h : IsCut thr 0 T) : T = 0 := by
  obtain ⟨w, V, m, h1, _, rfl⟩ := h
  have h0 : ∀ i, w i = 0 := by
    intro i
    have h2 : V.transpose * (V * Matrix.diagonal w * V.transpose) * V = Matrix.diagonal w := by
      calc V.transpose * (V * Matrix.diagonal w * V.transpose) * V = (V.transpose * V) * Matrix.diagonal w * (V.transpose * V) := by
            simp only [Matrix.mul_assoc]
        _ = _ := by rw [h1.1, Matrix.one_mul, Matrix.mul_one]
    rw [h1.2, Matrix.mul_zero, Matrix.zero_mul] at h2
    have := congrFun (congrFun h2 i) i
    rw [Matrix.diagonal_apply_eq] at this
    exact this.symm
  have : (fun i => if m * thr < w i then w i else 0) = fun _ => (0 : ℝ) := by
    funext i
    rw [h0 i, ite_self]
  rw [this, Matrix.diagonal_zero, Matrix.mul_zero, Matrix.zero_mul]

/-- The row sums of a residual kernel matrix are 0. -/
theorem resid_rows {K Kz : Matrix (Fin n) (Fin n) ℝ} (hz : (center Kz).PosSemidef) {eps : ℝ} (he : 0 < eps) (i : Fin n) :
    ∑ j, (resid (center Kz) eps * center K * resid (center Kz) eps) i j = 0 := by
  have hn : n ≠ 0 := by rintro rfl; exact i.elim0
  have h0 : ∀ K : Matrix (Fin n) (Fin n) ℝ, (center K).mulVec (fun _ => 1) = 0 := by
    intro K
    have : (hMat n).mulVec (fun _ => 1) = 0 := by
      ext i
      have hn' : (n : ℝ) ≠ 0 := by exact_mod_cast hn
      simp [hMat, Matrix.mulVec, dotProduct, Matrix.one_apply, hn']
    rw [center, ← Matrix.mulVec_mulVec, this, Matrix.mulVec_zero]
  have hu := ridge_unit hz he
  have h1 : (resid (center Kz) eps).mulVec (fun _ => 1) = fun _ => 1 := by
    have hr : resid (center Kz) eps * (center Kz + eps • 1) = eps • 1 := by
      rw [resid, Matrix.sub_mul, Matrix.one_mul, Matrix.mul_assoc, Matrix.nonsing_inv_mul _ hu, Matrix.mul_one, add_sub_cancel_left]
    have h2 := congrArg (fun M : Matrix (Fin n) (Fin n) ℝ => M.mulVec fun _ => (1 : ℝ)) hr
    simp only [← Matrix.mulVec_mulVec, Matrix.add_mulVec, h0 Kz, zero_add, Matrix.smul_mulVec, Matrix.one_mulVec, Matrix.mulVec_smul] at h2
    exact smul_right_injective _ he.ne' h2
  have h3 : (resid (center Kz) eps * center K * resid (center Kz) eps).mulVec (fun _ => 1) = 0 := by
    rw [← Matrix.mulVec_mulVec, h1, ← Matrix.mulVec_mulVec, h0, Matrix.mulVec_zero]
  have := congrFun h3 i
  simpa [Matrix.mulVec, dotProduct] using this

/-- Two rows: the statistic is positive if no kernel matrix is 0. -/
theorem stat_two {A B : Matrix (Fin 2) (Fin 2) ℝ} (hA : A.PosSemidef) (hB : B.PosSemidef) (ha : ∀ i, ∑ j, A i j = 0) (hb : ∀ i, ∑ j, B i j = 0)
    (hA0 : A ≠ 0) (hB0 : B ≠ 0) : 0 < hsicStat A B := by
  have h : ∀ M : Matrix (Fin 2) (Fin 2) ℝ, M.PosSemidef → (∀ i, ∑ j, M i j = 0) → M ≠ 0 →
      0 < M 0 0 ∧ M 0 1 = -M 0 0 ∧ M 1 0 = -M 0 0 ∧ M 1 1 = M 0 0 := by
    intro M hM hr h0
    have h1 := hr 0
    have h2 := hr 1
    rw [Fin.sum_univ_two] at h1 h2
    have h3 := psd_symm hM 0 1
    have h4 := hM.diag_nonneg (i := 0)
    have e1 : M 0 1 = -M 0 0 := by linarith
    have e2 : M 1 0 = -M 0 0 := by linarith
    have e3 : M 1 1 = M 0 0 := by linarith
    refine ⟨lt_of_le_of_ne h4 fun h => h0 ?_, e1, e2, e3⟩
    ext i j
    fin_cases i <;> fin_cases j <;> simp [e1, e2, e3, ← h]
  obtain ⟨a0, a1, a2, a3⟩ := h A hA ha hA0
  obtain ⟨b0, b1, b2, b3⟩ := h B hB hb hB0
  simp only [hsicStat, Fin.sum_univ_two, a1, a2, a3, b1, b2, b3]
  have := mul_pos a0 b0
  linarith

/-- C128. The test is not symmetric: the condition is put beside x, not beside y. For two rows, a `Y` that does not vary and an `X` and a `Z` that
do, asking for `X` and `Y` gives the statistic 0 and the p-value NaN, asking for `Y` and `X` a positive statistic. -/
theorem c128_false {E : Eig 2} (hE : E.Correct) {pinv : Matrix (Fin 2) (Fin 2) ℝ → Matrix (Fin 2) (Fin 2) ℝ} (hp : PinvCorrect pinv)
    (cdf : ℝ → ℝ → ℝ → ℝ) {wz eps w : ℝ} (hwz : 0 ≤ wz) (he : 0 < eps) (hw : 0 < w) (thr : ℝ)
    (X : Data 2 d) (Y : Data 2 d) (Z : Data 2 f) (hX : X 0 ≠ X 1) (hY : Y 0 = Y 1) (hZ : Z 0 ≠ Z 1) :
    ckciTest E pinv cdf (.kernel wz eps eps) thr w w X Y Z = .ok (none, 0) ∧
    ∃ p s, 0 < s ∧ ckciTest E pinv cdf (.kernel wz eps eps) thr w w Y X Z = .ok (p, s) := by
  have hz := center_psd (gaussianWidth_psd hwz (standardise Z))
  have hcY : center (gaussianWidth w (standardise Y)) = 0 := by
    rw [gauss_center_zero two_ne_zero hw]
    intro i j
    fin_cases i <;> fin_cases j <;> simp [hY]
  have hcX : center (gaussianWidth w (standardise X)) ≠ 0 := by
    rw [Ne, gauss_center_zero two_ne_zero hw]
    exact fun h => hX (h 0 1)
  have hcJ : center (gaussianWidth w (joint Y Z)) ≠ 0 := by
    rw [Ne, gauss_center_zero' two_ne_zero hw]
    exact fun h => hZ ((joint_inj _ _ _ _).1 (h 0 1)).2
  constructor
  · obtain ⟨S, hS⟩ := exists_cut two_ne_zero (resid_psd (center_psd (gaussianWidth_psd hw.le (joint X Z))) hz he) thr
    have hB0 : resid (center (gaussianWidth wz (standardise Z))) eps * center (gaussianWidth w (standardise Y)) *
        resid (center (gaussianWidth wz (standardise Z))) eps = 0 := by rw [hcY, Matrix.mul_zero, Matrix.zero_mul]
    obtain ⟨T, hT⟩ := exists_cut two_ne_zero (resid_psd (center_psd (gaussianWidth_psd hw.le (standardise Y))) hz he) thr
    have hT0 : T = 0 := by
      rw [hB0] at hT
      exact cut_of_zero hT
    rw [ckciTest_eq hE two_ne_zero hp hwz he he hw.le hw.le rfl rfl hS hT, hB0, hT0]
    simp [hsicStat]
  · obtain ⟨S, hS⟩ := exists_cut two_ne_zero (resid_psd (center_psd (gaussianWidth_psd hw.le (joint Y Z))) hz he) thr
    obtain ⟨T, hT⟩ := exists_cut two_ne_zero (resid_psd (center_psd (gaussianWidth_psd hw.le (standardise X))) hz he) thr
    refine ⟨_, _, ?_, ckciTest_eq hE two_ne_zero hp hwz he he hw.le hw.le rfl rfl hS hT⟩
    exact stat_two (resid_psd (center_psd (gaussianWidth_psd hw.le _)) hz he) (resid_psd (center_psd (gaussianWidth_psd hw.le _)) hz he)
      (fun i => resid_rows hz he i) (fun i => resid_rows hz he i) (fun h => hcJ ((resid_zero hz he).1 h)) (fun h => hcX ((resid_zero hz he).1 h))

/-- C128, partial. If no column of the condition varies, the test is symmetric (with the widths and constants exchanged, too). Symmetry for all data
is false (`c128_false`). -/
theorem c128_partial {E : Eig n} (hE : E.Correct) (hn : n ≠ 0) {pinv : Matrix (Fin n) (Fin n) ℝ → Matrix (Fin n) (Fin n) ℝ} (hp : PinvCorrect pinv)
    (cdf : ℝ → ℝ → ℝ → ℝ) {wz epsx epsy : ℝ} (hwz : 0 ≤ wz) (hex : 0 < epsx) (hey : 0 < epsy) (thr : ℝ) {wx wy : ℝ} (hx : 0 ≤ wx) (hy : 0 ≤ wy)
    (X : Data n d) (Y : Data n e) (Z : Data n f) (hZ : ∀ i j, Z i = Z j) :
    ckciTest E pinv cdf (.kernel wz epsx epsy) thr wx wy X Y Z = ckciTest E pinv cdf (.kernel wz epsy epsx) thr wy wx Y X Z := by
  have hj : ∀ {d : Nat} (X : Data n d) w, gaussianWidth w (joint X Z) = gaussianWidth w (standardise X) := by
    intro d X w
    funext i j
    simp only [gaussianWidth, joint_dist]
    have : sqDist (standardise Z) i j = 0 := sqDist_eq_zero.2 ((standardise_inj Z i j).2 (hZ i j))
    rw [this, mul_zero, add_zero]
  have hz := center_psd (gaussianWidth_psd hwz (standardise Z))
  obtain ⟨S, hS⟩ := exists_cut hn (resid_psd (center_psd (gaussianWidth_psd hx (joint X Z))) hz hex) thr
  obtain ⟨T, hT⟩ := exists_cut hn (resid_psd (center_psd (gaussianWidth_psd hy (joint Y Z))) hz hey) thr
  have hS' := hS
  have hT' := hT
  rw [hj] at hS' hT'
  rw [ckciTest_eq hE hn hp hwz hex hey hx hy rfl rfl hS hT', ckciTest_eq hE hn hp hwz hey hex hy hx rfl rfl hT hS', hj X, hj Y]
  have h1 : ∀ K L : Matrix (Fin n) (Fin n) ℝ, hsicStat K L = hsicStat L K := fun K L =>
    Finset.sum_congr rfl fun i _ => Finset.sum_congr rfl fun j _ => mul_comm _ _
  rw [h1]
  simp only [mul_comm (S _ _)]

theorem sum_pos_eigen {K : Matrix (Fin n) (Fin n) ℝ} (hK : K.PosSemidef) {w V} (h : IsEigen K w V) (h0 : K ≠ 0) : ∃ i, 0 < w i := by
  by_contra hc
  push Not at hc
  refine h0 ?_
  have : w = fun _ => 0 := funext fun i => le_antisymm (hc i) (eigen_nonneg hK h i)
  rw [← h.2, this, Matrix.diagonal_zero, Matrix.mul_zero, Matrix.zero_mul]

/-- The kernel of the condition is found exactly if there are four rows and the kernel matrix is not 0. -/
theorem kernelForZ_iff {E : Eig n} (hE : E.Correct) (gp : ℝ → Data n f → List (Fin n → ℝ) → Matrix (Fin n) (Fin n) ℝ × ℝ) {thr : ℝ} (ht : thr < 1)
    (w : ℝ) (cols : Nat) {K : Matrix (Fin n) (Fin n) ℝ} (hK : K.PosSemidef) (Z : Data n f) :
    (∃ r, kernelForZ E gp thr w cols K Z = .ok r) ↔ 4 ≤ n ∧ K ≠ 0 := by
  have hs := psd_transpose hK
  have he := hE.eigh K hs
  obtain ⟨v, V, hwv⟩ : ∃ w V, E.eigh K = (w, V) := ⟨_, _, rfl⟩
  rw [hwv] at he
  have hp := hE.perm v
  have hsd := hE.sorted v
  have hpairs : sortedPairs E K = (E.order v).map fun i => (v i, fun t => V t i) := by
    simp only [sortedPairs, symm_half hs, hwv]
  by_cases hn : 4 ≤ n
  · have hk : 1 ≤ min 400 (n / 4) := by omega
    obtain ⟨k, hk'⟩ : ∃ k, min 400 (n / 4) = k + 1 := ⟨min 400 (n / 4) - 1, by omega⟩
    have hlen := hp.length_eq
    rw [List.length_finRange] at hlen
    cases ho : E.order v with
    | nil => rw [ho] at hlen; simp at hlen; omega
    | cons i l =>
      rw [ho] at hsd
      have hhead : ∀ j, v j ≤ v i := by
        intro j
        have : j ∈ i :: l := by rw [← ho]; exact hp.mem_iff.2 (List.mem_finRange j)
        rcases List.mem_cons.1 this with rfl | h
        · exact le_refl _
        · exact List.rel_of_pairwise_cons hsd h
      have hl : (sortedPairs E K).take (min 400 (n / 4)) = (v i, fun t => V t i) :: (l.take k).map fun i => (v i, fun t => V t i) := by
        rw [hpairs, ho, hk', List.map_cons, List.take_succ_cons, List.map_take]
      obtain ⟨m, hm⟩ := npMax_some (l := (((v i, fun t => V t i) :: (l.take k).map fun i => (v i, fun t => V t i)).map Prod.fst)) (by simp)
      have hmv : m = v i := by
        obtain ⟨h1, h2⟩ := npMax_ok hm
        refine le_antisymm ?_ (h2 _ (by simp))
        simp only [List.map_cons, List.map_map, List.mem_cons, List.mem_map] at h1
        rcases h1 with h1 | ⟨j, _, h1⟩
        · exact h1.le
        · rw [← h1]; exact hhead j
      have hform : kernelForZ E gp thr w cols K Z = match ((v i, fun t => V t i) :: (l.take k).map fun i => (v i, fun t => V t i)).filter
          (fun p => decide (m * thr < p.1)) with
        | [] => .error .index
        | p :: l' => .ok (gp (Real.sqrt (1 / (w * cols))) Z ((p :: l').map fun q t => 2 * Real.sqrt n * (q.2 t * Real.sqrt q.1) / Real.sqrt p.1)) := by
        simp only [kernelForZ, keepLarge, hl, hm]
        change (match (_ : List (ℝ × (Fin n → ℝ))) with | [] => _ | p :: l' => _) = _
        cases ((v i, fun t => V t i) :: (l.take k).map fun i => (v i, fun t => V t i)).filter (fun p => decide (m * thr < p.1)) <;> rfl
      rw [hform]
      by_cases h0 : 0 < v i
      · have h1 : m * thr < v i := by
          rw [hmv]
          calc v i * thr < v i * 1 := mul_lt_mul_of_pos_left ht h0
            _ = v i := mul_one _
        rw [List.filter_cons_of_pos (by simpa using h1)]
        refine ⟨fun _ => ⟨hn, ?_⟩, fun _ => ⟨_, rfl⟩⟩
        rintro rfl
        have := eigen_nonneg (K := (-0 : Matrix (Fin n) (Fin n) ℝ)) (by rw [neg_zero]; exact hK) (w := fun j => -v j) (V := V)
          ⟨he.1, by
            have : Matrix.diagonal (fun j => -v j) = -Matrix.diagonal v := by rw [Matrix.diagonal_neg]
            rw [this, Matrix.mul_neg, Matrix.neg_mul, he.2]⟩ i
        linarith
      · have hz : v i = 0 := le_antisymm (not_lt.1 h0) (eigen_nonneg hK he i)
        have hf : ((v i, fun t => V t i) :: (l.take k).map fun i => (v i, fun t => V t i)).filter (fun p => decide (m * thr < p.1)) = [] := by
          rw [List.filter_eq_nil_iff]
          intro q hq
          simp only [decide_eq_true_eq, not_lt, hmv, hz, zero_mul]
          simp only [List.mem_cons, List.mem_map] at hq
          rcases hq with rfl | ⟨j, _, rfl⟩
          · exact hz.le
          · exact (hhead j).trans hz.le
        rw [hf]
        constructor
        · rintro ⟨r, hr⟩; cases hr
        · rintro ⟨_, hK0⟩
          obtain ⟨j, hj⟩ := sum_pos_eigen hK he hK0
          have := hhead j
          linarith
  · constructor
    · rintro ⟨r, hr⟩
      obtain ⟨l, hl, _⟩ := bind_ok hr
      obtain ⟨m, hm, _⟩ := bind_ok hl
      have : min 400 (n / 4) = 0 := by omega
      rw [this, List.take_zero] at hm
      cases hm
    · exact fun h => absurd h.1 hn

/-- C129. With a given kernel for the condition the test returns for all data with at least one row. With the default (Gaussian processes) it returns
exactly if there are at least four rows, `Y` varies, and `X` or `Z` varies; otherwise it raises. -/
theorem c129_returns {E : Eig n} (hE : E.Correct) {pinv : Matrix (Fin n) (Fin n) ℝ → Matrix (Fin n) (Fin n) ℝ} (hp : PinvCorrect pinv)
    (cdf : ℝ → ℝ → ℝ → ℝ) {thr wx wy : ℝ} (ht : thr < 1) (hx : 0 < wx) (hy : 0 < wy) (X : Data n d) (Y : Data n e) (Z : Data n f) :
    (∀ wz epsx epsy, 0 ≤ wz → 0 < epsx → 0 < epsy → n ≠ 0 → ∃ r, ckciTest E pinv cdf (.kernel wz epsx epsy) thr wx wy X Y Z = .ok r) ∧
    (∀ gp, GpCorrect gp → ((∃ r, ckciTest E pinv cdf (.process gp) thr wx wy X Y Z = .ok r) ↔
      4 ≤ n ∧ (∃ i j, Y i ≠ Y j) ∧ ((∃ i j, X i ≠ X j) ∨ ∃ i j, Z i ≠ Z j))) := by
  constructor
  · intro wz epsx epsy hwz hex hey hn
    have hz := center_psd (gaussianWidth_psd hwz (standardise Z))
    obtain ⟨S, hS⟩ := exists_cut hn (resid_psd (center_psd (gaussianWidth_psd hx.le (joint X Z))) hz hex) thr
    obtain ⟨T, hT⟩ := exists_cut hn (resid_psd (center_psd (gaussianWidth_psd hy.le (standardise Y))) hz hey) thr
    exact ⟨_, ckciTest_eq hE hn hp hwz hex hey hx.le hy.le rfl rfl hS hT⟩
  · intro gp hg
    have h1 := kernelForZ_iff hE gp ht wx (d + f) (kernel_psd hx.le (joint X Z)) (standardise Z)
    have h2 := kernelForZ_iff hE gp ht wx (d + f) (kernel_psd hy.le (standardise Y)) (standardise Z)
    have hiff : (∃ r, ckciTest E pinv cdf (.process gp) thr wx wy X Y Z = .ok r) ↔
        (4 ≤ n ∧ centerKernelMatrix (gaussianWidth wx (joint X Z)) ≠ 0) ∧ 4 ≤ n ∧ centerKernelMatrix (gaussianWidth wy (standardise Y)) ≠ 0 := by
      rw [← h1, ← h2]
      constructor
      · rintro ⟨r, hr⟩
        obtain ⟨s, hs, _⟩ := bind_ok hr
        simp only [ckciStat] at hs
        obtain ⟨zx, hzx, hs⟩ := bind_ok hs
        obtain ⟨zy, hzy, hs⟩ := bind_ok hs
        exact ⟨⟨zx, hzx⟩, ⟨zy, hzy⟩⟩
      · rintro ⟨⟨zx, hzx⟩, ⟨zy, hzy⟩⟩
        have hn : n ≠ 0 := by
          have := (h1.1 ⟨zx, hzx⟩).1
          omega
        have hs : ∃ s, ckciStat E pinv (.process gp) thr wx wy X Y Z = .ok s := by
          simp only [ckciStat, hzx, hzy]
          exact ⟨_, rfl⟩
        obtain ⟨s, hs⟩ := hs
        obtain ⟨_, a, b⟩ := ckciStat_ok hp (mode := .process gp) hg hx.le hy.le hs
        obtain ⟨u, _, _, hu, _⟩ := getUuprod_ok hE hn (thr := thr) a b
        refine ⟨((getKappa u.1).map fun kt => 1 - cdf s.1 kt.1 kt.2, s.1), ?_⟩
        simp only [ckciTest, hs]
        change (getUuprod E thr s.2.1 s.2.2 >>= _) = _
        rw [hu]
        rfl
    rw [hiff]
    constructor
    · rintro ⟨⟨hn, ha⟩, _, hb⟩
      have hn0 : n ≠ 0 := by omega
      rw [gauss_eq, Ne, gauss_center_zero hn0 hy] at hb
      rw [gauss_eq, Ne, gauss_center_zero' hn0 hx] at ha
      push Not at ha hb
      refine ⟨hn, hb, ?_⟩
      obtain ⟨i, j, hij⟩ := ha
      rw [Ne, joint_inj, not_and_or] at hij
      exact hij.imp (fun h => ⟨i, j, h⟩) fun h => ⟨i, j, h⟩
    · rintro ⟨hn, hb, ha⟩
      have hn0 : n ≠ 0 := by omega
      rw [gauss_eq, gauss_eq, ne_eq, ne_eq, gauss_center_zero hn0 hy, gauss_center_zero' hn0 hx]
      push Not
      refine ⟨⟨hn, ?_⟩, hn, hb⟩
      rcases ha with ⟨i, j, h⟩ | ⟨i, j, h⟩
      · exact ⟨i, j, fun hc => h ((joint_inj _ _ _ _).1 hc).1⟩
      · exact ⟨i, j, fun hc => h ((joint_inj _ _ _ _).1 hc).2⟩

/-- What is assumed of `eigvalsh`: the eigenvalues of a symmetric matrix, each as often as it has to be. -/
def EigvalsCorrect (ev : (k : Nat) → Matrix (Fin k) (Fin k) ℝ → List ℝ) : Prop :=
  ∀ k (M : Matrix (Fin k) (Fin k) ℝ), M.transpose = M → ∃ w V, IsEigen M w V ∧ (ev k M).Perm (List.ofFn w)

theorem sq_trace {w : Fin n → ℝ} {V : Matrix (Fin n) (Fin n) ℝ} (h : V.transpose * V = 1) :
    ((V * Matrix.diagonal w * V.transpose) * (V * Matrix.diagonal w * V.transpose)).trace = ∑ i, w i ^ 2 := by
  have : (V * Matrix.diagonal w * V.transpose) * (V * Matrix.diagonal w * V.transpose) =
      V * Matrix.diagonal (fun i => w i ^ 2) * V.transpose := by
    calc (V * Matrix.diagonal w * V.transpose) * (V * Matrix.diagonal w * V.transpose) =
        V * (Matrix.diagonal w * (V.transpose * V) * Matrix.diagonal w) * V.transpose := by simp only [Matrix.mul_assoc]
      _ = _ := by rw [h, Matrix.mul_one, Matrix.diagonal_mul_diagonal]; simp only [sq]
  rw [this, trace_eigen h]

/-- The list of the eigenvalues of a positive semidefinite matrix. -/
theorem eigvals_ok {ev : (k : Nat) → Matrix (Fin k) (Fin k) ℝ → List ℝ} (hev : EigvalsCorrect ev) {k : Nat} {M : Matrix (Fin k) (Fin k) ℝ}
    (hM : M.PosSemidef) : (ev k M).length = k ∧ (∀ x ∈ ev k M, 0 ≤ x) ∧ (ev k M).sum = M.trace ∧ ((ev k M).map fun x => x ^ 2).sum = (M * M).trace := by
  obtain ⟨w, V, h, hp⟩ := hev k M (psd_transpose hM)
  refine ⟨by rw [hp.length_eq, List.length_ofFn], fun x hx => ?_, ?_, ?_⟩
  · obtain ⟨i, rfl⟩ := List.mem_ofFn.1 (hp.mem_iff.1 hx)
    exact eigen_nonneg hM h i
  · rw [hp.sum_eq, List.sum_ofFn]
    conv_rhs => rw [← h.2]
    rw [trace_eigen h.1]
  · rw [(hp.map _).sum_eq, List.map_ofFn, List.sum_ofFn]
    conv_rhs => rw [← h.2]
    rw [sq_trace h.1]
    rfl

theorem uuProd_psd (u : List (Fin n → ℝ)) : (uuProd u).2.PosSemidef ∧ (uuProd u).1 = min n u.length := by
  by_cases hc : n < u.length
  · have h : uuProd u = ⟨n, gram u⟩ := if_pos hc
    rw [h, gram_eq]
    refine ⟨?_, by simp only; omega⟩
    have := Matrix.posSemidef_self_mul_conjTranspose (colMat u)
    rwa [Matrix.conjTranspose_eq_transpose_of_trivial] at this
  · have h : uuProd u = ⟨u.length, (colMat u).transpose * colMat u⟩ := by
      refine (if_neg hc).trans ?_
      congr 1
    rw [h]
    refine ⟨?_, by simp only; omega⟩
    have := Matrix.posSemidef_conjTranspose_mul_self (colMat u)
    rwa [Matrix.conjTranspose_eq_transpose_of_trivial] at this

theorem filter_pos_sum {l : List ℝ} (h : ∀ x ∈ l, 0 ≤ x) (g : ℝ → ℝ) (hg : g 0 = 0) :
    ((l.filter fun x => decide (0 < x)).map g).sum = (l.map g).sum := by
  rw [sum_filter_ite]
  congr 1
  refine List.map_congr_left fun x hx => ?_
  rcases (h x hx).eq_or_lt with h0 | h0
  · rw [← h0, hg, ite_self]
  · rw [if_pos h0]

/-- C130. In the non-approximate mode of the conditional test without a threshold, the p-value is the share of the samples `Σ wᵢ fᵢ` above the
statistic, where the weights are positive and their sum and the sum of their squares are those of the gamma approximation (half the variance): for
draws of mean 1 and variance 2 both modes use null distributions of equal mean and variance. -/
theorem c130_conditional {E : Eig n} (hE : E.Correct) (hn : n ≠ 0) {ev : (k : Nat) → Matrix (Fin k) (Fin k) ℝ → List ℝ} (hev : EigvalsCorrect ev)
    {pinv : Matrix (Fin n) (Fin n) ℝ → Matrix (Fin n) (Fin n) ℝ} (hp : PinvCorrect pinv) {draw : Nat → Nat → ℝ} {N : Nat}
    {mode : ZMode n f} (hm : mode.Correct) {wx wy : ℝ} (hx : 0 ≤ wx) (hy : 0 ≤ wy) {X : Data n d} {Y : Data n e} {Z : Data n f} {p s : ℝ}
    (h : ckciSpectral E ev pinv draw N mode 0 wx wy X Y Z = .ok (p, s)) :
    ∃ (A B : Matrix (Fin n) (Fin n) ℝ) (ws : List ℝ), ckciStat E pinv mode 0 wx wy X Y Z = .ok (s, A, B) ∧ (∀ w ∈ ws, 0 < w) ∧
      ws.sum = ∑ t, A t t * B t t ∧ (ws.map fun x => x ^ 2).sum = ∑ i, ∑ j, (A i j * B i j) ^ 2 ∧
      p = ((List.range N).countP fun k => decide (s < ∑ i : Fin ws.length, ws.get i * draw i k)) / (N : ℝ) := by
  obtain ⟨⟨s', A, B⟩, hs, h⟩ := bind_ok h
  obtain ⟨u, hu, h⟩ := bind_ok h
  obtain ⟨ws, hw, h⟩ := bind_ok h
  obtain ⟨h1, h2, h3⟩ := ckciStat_ok hp hm hx hy hs
  simp only [pure, Except.pure, Except.ok.injEq, Prod.mk.injEq] at h
  obtain ⟨rfl, rfl⟩ := h
  obtain ⟨u', S, T, hu', hS, hT, htr, hsq⟩ := getUuprod_ok hE hn (thr := 0) h2 h3
  rw [cut_zero h2 hS, cut_zero h3 hT] at htr hsq
  have hu2 := hu
  rw [hu'] at hu2
  cases hu2
  obtain ⟨vx, _, hu⟩ := bind_ok hu
  obtain ⟨vy, _, hu⟩ := bind_ok hu
  simp only [pure, Except.pure, Except.ok.injEq] at hu
  subst hu
  obtain ⟨hpsd, hsize⟩ := uuProd_psd (uuCols vx vy)
  rw [uuCols_length] at hsize
  obtain ⟨e1, e2, e3, e4⟩ := eigvals_ok hev hpsd
  obtain ⟨m, hmax, hw⟩ := bind_ok hw
  simp only [pure, Except.pure, Except.ok.injEq, mul_zero] at hw
  have hperm := List.perm_insertionSort (· ≥ ·) (ev (uuProd (uuCols vx vy)).1 (uuProd (uuCols vx vy)).2)
  have htake : ((ev (uuProd (uuCols vx vy)).1 (uuProd (uuCols vx vy)).2).insertionSort (· ≥ ·)).take (min n (vx.length * vy.length)) =
      (ev (uuProd (uuCols vx vy)).1 (uuProd (uuCols vx vy)).2).insertionSort (· ≥ ·) := by
    refine List.take_of_length_le ?_
    rw [hperm.length_eq, e1, hsize]
  rw [htake] at hw
  have hnn : ∀ x ∈ (ev (uuProd (uuCols vx vy)).1 (uuProd (uuCols vx vy)).2).insertionSort (· ≥ ·), 0 ≤ x := fun x hx => e2 x (hperm.mem_iff.1 hx)
  refine ⟨A, B, ws, hs, ?_, ?_, ?_, ?_⟩
  · intro w hw'
    rw [← hw] at hw'
    simpa using (List.mem_filter.1 hw').2
  · have := filter_pos_sum hnn id rfl
    rw [List.map_id, List.map_id] at this
    rw [← hw, this, hperm.sum_eq, e3, htr]
  · rw [← hw, filter_pos_sum hnn (fun x => x ^ 2) (by norm_num), (hperm.map _).sum_eq, e4, hsq]
  · simp only [empiricalP, nullSamples, List.countP_eq_length_filter, List.filter_map, List.length_map]
    congr 3
    refine List.filter_congr fun k _ => ?_
    simp only [Function.comp]
    congr 2
    rw [← List.sum_ofFn]
    congr 1
    refine List.ext_getElem (by simp) fun i h1 h2 => ?_
    simp

theorem outer_sum (g : ℝ → ℝ) (hg : ∀ a b, g (a * b) = g a * g b) (la lb : List ℝ) :
    ((la.flatMap fun a => lb.map fun b => a * b).map g).sum = (la.map g).sum * (lb.map g).sum := by
  induction la with
  | nil => simp
  | cons a la ih =>
    rw [List.flatMap_cons, List.map_append, List.sum_append, ih, List.map_cons, List.sum_cons, add_mul, List.map_map]
    congr 1
    rw [← List.sum_map_mul_left]
    exact congrArg List.sum (List.map_congr_left fun b _ => hg a b)

/-- C130. The same for the unconditional test with at most 1000 rows. -/
theorem c130_unconditional {npInt : Bool} {ev : (k : Nat) → Matrix (Fin k) (Fin k) ℝ → List ℝ} (hev : EigvalsCorrect ev) (hn : n ≤ 1000)
    {draw : Nat → Nat → ℝ} {N : Nat} {wx wy : ℝ} (hx : 0 ≤ wx) (hy : 0 ≤ wy) {X : Data n d} {Y : Data n e} {p s : ℝ}
    (h : ukciSpectral npInt ev draw N 0 wx wy X Y = .ok (p, s)) :
    ∃ (K L : Matrix (Fin n) (Fin n) ℝ) (ws : List ℝ), K = center (gaussianWidth wx (standardise X)) ∧ L = center (gaussianWidth wy (standardise Y)) ∧
      s = ∑ i, ∑ j, K i j * L i j ∧ (∀ w ∈ ws, 0 < w) ∧ ws.sum / n = K.trace * L.trace / n ∧
      2 * (ws.map fun x => x ^ 2).sum / (n : ℝ) ^ 2 = 2 * (∑ i, ∑ j, K i j ^ 2) * (∑ i, ∑ j, L i j ^ 2) / (n : ℝ) ^ 2 ∧
      p = ((List.range N).countP fun k => decide (s < (∑ i : Fin ws.length, ws.get i * draw i k) / n)) / (N : ℝ) := by
  have hK := kernel_psd hx (standardise X)
  have hL := kernel_psd hy (standardise Y)
  obtain ⟨ws, hw, h⟩ := bind_ok h
  simp only [pure, Except.pure, Except.ok.injEq, Prod.mk.injEq] at h
  obtain ⟨rfl, rfl⟩ := h
  refine ⟨_, _, ws, (gauss_eq _ _), (gauss_eq _ _), rfl, ?_⟩
  generalize centerKernelMatrix (gaussianWidth wx (standardise X)) = K at *
  generalize centerKernelMatrix (gaussianWidth wy (standardise Y)) = L at *
  simp only [spectralWeights] at hw
  rw [if_neg (by omega)] at hw
  obtain ⟨num, hnum, hw⟩ := bind_ok hw
  cases hnum
  obtain ⟨m, _, hw⟩ := bind_ok hw
  simp only [pure, Except.pure, Except.ok.injEq, mul_zero] at hw
  obtain ⟨a1, a2, a3, a4⟩ := eigvals_ok hev hK
  obtain ⟨b1, b2, b3, b4⟩ := eigvals_ok hev hL
  have pa := List.perm_insertionSort (· ≥ ·) (ev n K)
  have pb := List.perm_insertionSort (· ≥ ·) (ev n L)
  have ta : ((ev n K).insertionSort (· ≥ ·)).take n = (ev n K).insertionSort (· ≥ ·) := List.take_of_length_le (by rw [pa.length_eq, a1])
  have tb : ((ev n L).insertionSort (· ≥ ·)).take n = (ev n L).insertionSort (· ≥ ·) := List.take_of_length_le (by rw [pb.length_eq, b1])
  rw [ta, tb] at hw
  generalize (ev n K).insertionSort (· ≥ ·) = la at *
  generalize (ev n L).insertionSort (· ≥ ·) = lb at *
  have hnn : ∀ x ∈ la.flatMap fun a => lb.map fun b => a * b, 0 ≤ x := by
    intro x hx
    obtain ⟨a, ha, hx⟩ := List.mem_flatMap.1 hx
    obtain ⟨b, hb, rfl⟩ := List.mem_map.1 hx
    exact mul_nonneg (a2 a (pa.mem_iff.1 ha)) (b2 b (pb.mem_iff.1 hb))
  have hsqK : ∀ M : Matrix (Fin n) (Fin n) ℝ, M.PosSemidef → (M * M).trace = ∑ i, ∑ j, M i j ^ 2 := by
    intro M hM
    rw [Matrix.trace]
    refine Finset.sum_congr rfl fun i _ => ?_
    rw [Matrix.diag_apply, Matrix.mul_apply]
    exact Finset.sum_congr rfl fun j _ => by rw [psd_symm hM j i, sq]
  refine ⟨?_, ?_, ?_, ?_⟩
  · intro w hw'
    rw [← hw] at hw'
    simpa using (List.mem_filter.1 hw').2
  · have := filter_pos_sum hnn id rfl
    rw [outer_sum id (fun _ _ => rfl), List.map_id, List.map_id, List.map_id] at this
    rw [← hw, this, pa.sum_eq, pb.sum_eq, a3, b3]
  · rw [← hw, filter_pos_sum hnn (fun x => x ^ 2) (by norm_num), outer_sum _ (fun a b => by ring), (pa.map _).sum_eq, (pb.map _).sum_eq, a4, b4,
      hsqK K hK, hsqK L hL]
    ring
  · simp only [empiricalP, nullSamples, List.countP_eq_length_filter, List.filter_map, List.length_map]
    congr 3
    refine List.filter_congr fun k _ => ?_
    simp only [Function.comp]
    congr 3
    rw [← List.sum_ofFn]
    congr 1
    refine List.ext_getElem (by simp) fun i h1 h2 => ?_
    simp

theorem eigvals_zero {ev : (k : Nat) → Matrix (Fin k) (Fin k) ℝ → List ℝ} (hev : EigvalsCorrect ev) (k : Nat) : ∀ x ∈ ev k 0, x = 0 := by
  obtain ⟨_, h2, h3, _⟩ := eigvals_ok hev (k := k) (M := 0) Matrix.PosSemidef.zero
  rw [Matrix.trace_zero] at h3
  intro x hx
  refine le_antisymm ?_ (h2 x hx)
  rw [← h3]
  exact List.single_le_sum h2 x hx

/-- C130. For a variable that does not vary, the non-approximate mode of the unconditional test gives the p-value 0, whatever the other variable and
the draws (the approximate mode gives NaN, C82): it is never judged independent. The conditional test with a given kernel raises. -/
theorem c130_constant {ev : (k : Nat) → Matrix (Fin k) (Fin k) ℝ → List ℝ} (hev : EigvalsCorrect ev) (hn : n ≠ 0)
    (draw : Nat → Nat → ℝ) (N : Nat) (thr : ℝ) {wx wy : ℝ} (hx : 0 < wx) (hy : 0 < wy) (X : Data n d) (Y : Data n e) (hY : ∀ i j, Y i = Y j) :
    (∀ npInt, n ≤ 1000 → ukciSpectral npInt ev draw N thr wx wy X Y = .ok (0, 0) ∧ ukciSpectral npInt ev draw N thr wy wx Y X = .ok (0, 0)) ∧
    (∀ {f : Nat} {E : Eig n} {pinv : Matrix (Fin n) (Fin n) ℝ → Matrix (Fin n) (Fin n) ℝ} {wz epsx epsy : ℝ} (Z : Data n f), E.Correct →
      PinvCorrect pinv → 0 ≤ wz → 0 < epsx → 0 < epsy → ckciSpectral E ev pinv draw N (.kernel wz epsx epsy) thr wx wy X Y Z = .error .value) := by
  have hc : centerKernelMatrix (gaussianWidth wy (standardise Y)) = 0 := by rw [gauss_eq, gauss_center_zero hn hy]; exact hY
  constructor
  · intro npInt h1000
    have key : ∀ K L : Matrix (Fin n) (Fin n) ℝ, K.PosSemidef → L.PosSemidef → (K = 0 ∨ L = 0) → spectralWeights npInt ev thr K L = .ok [] := by
      intro K L hK hL h0
      simp only [spectralWeights]
      rw [if_neg (by omega)]
      obtain ⟨a1, _⟩ := eigvals_ok hev hK
      obtain ⟨b1, _⟩ := eigvals_ok hev hL
      have pa := List.perm_insertionSort (· ≥ ·) (ev n K)
      have pb := List.perm_insertionSort (· ≥ ·) (ev n L)
      have hz : ∀ x ∈ (((ev n K).insertionSort (· ≥ ·)).take n).flatMap fun a => (((ev n L).insertionSort (· ≥ ·)).take n).map fun b => a * b, x = 0 := by
        intro x hx
        obtain ⟨a, ha, hx⟩ := List.mem_flatMap.1 hx
        obtain ⟨b, hb, rfl⟩ := List.mem_map.1 hx
        rcases h0 with rfl | rfl
        · rw [eigvals_zero hev n a (pa.mem_iff.1 (List.mem_of_mem_take ha)), zero_mul]
        · rw [eigvals_zero hev n b (pb.mem_iff.1 (List.mem_of_mem_take hb)), mul_zero]
      have hne : ((((ev n K).insertionSort (· ≥ ·)).take n).flatMap fun a => (((ev n L).insertionSort (· ≥ ·)).take n).map fun b => a * b) ≠ [] := by
        obtain ⟨a, ha⟩ : ∃ a, a ∈ ((ev n K).insertionSort (· ≥ ·)).take n := by
          refine List.exists_mem_of_length_pos ?_
          rw [List.length_take, pa.length_eq, a1]
          omega
        obtain ⟨b, hb⟩ : ∃ b, b ∈ ((ev n L).insertionSort (· ≥ ·)).take n := by
          refine List.exists_mem_of_length_pos ?_
          rw [List.length_take, pb.length_eq, b1]
          omega
        exact List.ne_nil_of_mem (List.mem_flatMap.2 ⟨a, ha, List.mem_map.2 ⟨b, hb, rfl⟩⟩)
      obtain ⟨m, hm⟩ := npMax_some hne
      have hm0 := hz m (npMax_ok hm).1
      change (npMax _ >>= _) = _
      rw [hm]
      change Except.ok _ = _
      congr 1
      rw [List.filter_eq_nil_iff]
      intro x hx
      rw [hz x hx, hm0]
      simp
    have hstat : ∀ K : Matrix (Fin n) (Fin n) ℝ, hsicStat K 0 = 0 ∧ hsicStat 0 K = 0 := fun K => by simp [hsicStat]
    have hemp : empiricalP N ((nullSamples draw N []).map fun x => x / (n : ℝ)) 0 = 0 := by
      simp [empiricalP, nullSamples]
    constructor
    · simp only [ukciSpectral, hc, key _ 0 (kernel_psd hx.le _) Matrix.PosSemidef.zero (Or.inr rfl), (hstat _).1]
      change Except.ok (empiricalP N ((nullSamples draw N []).map fun x => x / (n : ℝ)) 0, (0 : ℝ)) = _
      rw [hemp]
    · simp only [ukciSpectral, hc, key 0 _ Matrix.PosSemidef.zero (kernel_psd hx.le _) (Or.inl rfl), (hstat _).2]
      change Except.ok (empiricalP N ((nullSamples draw N []).map fun x => x / (n : ℝ)) 0, (0 : ℝ)) = _
      rw [hemp]
  · intro f E pinv wz epsx epsy Z hE hp hwz hex hey
    have hz := center_psd (gaussianWidth_psd hwz (standardise Z))
    rw [gauss_eq] at hc
    have hs := ckciStat_kernel hp E hwz hex hey thr wx wy X Y Z
    simp only [hc, Matrix.mul_zero, Matrix.zero_mul] at hs
    have hA := resid_psd (center_psd (gaussianWidth_psd hx.le (joint X Z))) hz hex
    obtain ⟨cx, h1, _⟩ := scaledCols_cut hE hn (thr := thr) hA
    have h2 : scaledCols E thr (0 : Matrix (Fin n) (Fin n) ℝ) = .ok [] := by
      have he := hE.eigh 0 (by rw [Matrix.transpose_zero])
      have h0 : ∀ i, (E.eigh 0).1 i = 0 := by
        intro i
        refine le_antisymm ?_ (eigen_nonneg Matrix.PosSemidef.zero he i)
        have h3 := trace_eigen (w := (E.eigh 0).1) he.1
        rw [he.2, Matrix.trace_zero] at h3
        rw [h3]
        exact Finset.single_le_sum (fun j _ => eigen_nonneg Matrix.PosSemidef.zero he j) (Finset.mem_univ i)
      have hpairs : sortedPairs E 0 = (E.order (E.eigh 0).1).map fun i => ((0 : ℝ), fun t => (E.eigh 0).2 t i) := by
        simp only [sortedPairs, symm_half (K := (0 : Matrix (Fin n) (Fin n) ℝ)) (by rw [Matrix.transpose_zero]), h0]
      have hne : (sortedPairs E 0).map Prod.fst ≠ [] := by
        intro h
        have h1 := congrArg List.length h
        rw [hpairs, List.length_map, List.length_map, (hE.perm _).length_eq, List.length_finRange] at h1
        exact hn h1
      obtain ⟨m, hm⟩ := npMax_some hne
      have hm0 : m = 0 := by
        have := (npMax_ok hm).1
        rw [hpairs, List.map_map] at this
        obtain ⟨i, _, hi⟩ := List.mem_map.1 this
        exact hi.symm
      simp only [scaledCols, keepLarge, hm]
      change Except.ok _ = _
      congr 1
      rw [List.map_eq_nil_iff, List.filter_eq_nil_iff, hpairs, hm0]
      intro q hq
      obtain ⟨i, _, rfl⟩ := List.mem_map.1 hq
      simp
    simp only [ckciSpectral, hs]
    change (getUuprod E thr _ 0 >>= _) = _
    have hu : getUuprod E thr (resid (center (gaussianWidth wz (standardise Z))) epsx * center (gaussianWidth wx (joint X Z)) *
        resid (center (gaussianWidth wz (standardise Z))) epsx) 0 = .ok (uuProd (uuCols cx []), 0) := by
      simp only [getUuprod, h1, h2]
      rfl
    rw [hu]
    change (nullWeights ev thr _ 0 n >>= _) = _
    simp only [nullWeights, Nat.min_zero, List.take_zero]
    rfl

section examples

theorem inv_pinv (n : Nat) : PinvCorrect (n := n) fun M => M⁻¹ := fun _ _ => rfl

/-- The eigenvalues. -/
noncomputable def stdVals (k : Nat) (M : Matrix (Fin k) (Fin k) ℝ) : List ℝ := List.ofFn ((stdEig k).eigh M).1

theorem stdVals_correct : EigvalsCorrect stdVals := fun k M h => ⟨_, _, (stdEig_correct k).eigh M h, List.Perm.refl _⟩

/-- Four rows. -/
def ex4 : Data 4 1 := ![![0], ![1], ![3], ![1]]

/-- Four rows, two columns. -/
def ex4' : Data 4 2 := ![![0, 1], ![0, 0], ![5, 1], ![2, 2]]

/-- A Gaussian process that learns only noise. -/
noncomputable def noiseGp : ℝ → Data n f → List (Fin n → ℝ) → Matrix (Fin n) (Fin n) ℝ × ℝ := fun _ _ _ => (0, 1 / 10)

theorem noiseGp_correct : GpCorrect (noiseGp (n := n) (f := f)) := fun _ _ _ => ⟨Matrix.PosSemidef.zero, by norm_num [noiseGp]⟩

theorem ex4_ne : ∃ i j, ex4 i ≠ ex4 j := ⟨0, 1, fun h => by
  have := congrFun h 0
  norm_num [ex4] at this⟩

/-- C129: the test returns for these data in the default mode. -/
example (cdf : ℝ → ℝ → ℝ → ℝ) : ∃ r, ckciTest (stdEig 4) (fun M => M⁻¹) cdf (.process noiseGp) (1 / 100000) 1 1 ex4 ex4 ex4' = .ok r :=
  ((c129_returns (stdEig_correct 4) (inv_pinv 4) cdf (by norm_num) one_pos one_pos ex4 ex4 ex4').2 noiseGp noiseGp_correct).2
    ⟨le_refl 4, ex4_ne, Or.inl ex4_ne⟩

/-- C129: it raises for three rows. -/
example (cdf : ℝ → ℝ → ℝ → ℝ) : ¬∃ r, ckciTest (stdEig 3) (fun M => M⁻¹) cdf (.process noiseGp) (1 / 100000) 1 1 exX exX exY = .ok r := by
  rw [(c129_returns (stdEig_correct 3) (inv_pinv 3) cdf (by norm_num) one_pos one_pos exX exX exY).2 noiseGp noiseGp_correct]
  exact fun h => absurd h.1 (by norm_num)

/-- C125, C126: the results of a test that returns. -/
example (cdf : ℝ → ℝ → ℝ → ℝ) : ∃ (r : Option ℝ × ℝ) (Kx Ky Rx Ry : Matrix (Fin 4) (Fin 4) ℝ),
    ckciTest (stdEig 4) (fun M => M⁻¹) cdf (.kernel 1 (1 / 1000) (1 / 1000)) (1 / 100000) 1 1 ex4 ex4 ex4' = .ok r ∧
    r.2 = ∑ i, ∑ j, (Rx * Kx * Rx) i j * (Ry * Ky * Ry) i j := by
  obtain ⟨r, hr⟩ := (c129_returns (stdEig_correct 4) (inv_pinv 4) cdf (thr := 1 / 100000) (by norm_num) one_pos one_pos ex4 ex4 ex4').1 1
    (1 / 1000) (1 / 1000) zero_le_one (by norm_num) (by norm_num) (by norm_num)
  obtain ⟨Kx, Ky, _, Rx, Ry, _, _, _, _, _, h⟩ := c125_statistic (inv_pinv 4) zero_le_one (by norm_num) (by norm_num) hr
  exact ⟨r, Kx, Ky, Rx, Ry, hr, h⟩

example (X Y : Data 4 1) (Z : Data 4 2) : ∀ r, ckciTest (stdEig 4) (fun M => M⁻¹) (fun _ _ _ => 1 / 2) (.process noiseGp) (1 / 100000) 1 1 X Y Z = .ok r →
    0 ≤ r.2 ∧ ∀ p, r.1 = some p → 0 ≤ p ∧ p ≤ 1 :=
  (c125_range (stdEig_correct 4) (inv_pinv 4) (fun _ _ _ _ _ => by norm_num) (mode := .process noiseGp) noiseGp_correct zero_le_one zero_le_one X Y Z).1

/-- C126: two rows, a p-value that is a number. -/
theorem ex2_some (cdf : ℝ → ℝ → ℝ → ℝ) (X Y : Data 2 1) (Z : Data 2 1) (hX : X 0 ≠ X 1) (hY : Y 0 ≠ Y 1) :
    ∃ p s, ckciTest (stdEig 2) (fun M => M⁻¹) cdf (.kernel 1 (1 / 1000) (1 / 1000)) 0 1 1 X Y Z = .ok (some p, s) := by
  have hz := center_psd (gaussianWidth_psd zero_le_one (standardise Z))
  have he : (0 : ℝ) < 1 / 1000 := by norm_num
  have hA := resid_psd (center_psd (gaussianWidth_psd zero_le_one (joint X Z))) hz he
  have hB := resid_psd (center_psd (gaussianWidth_psd zero_le_one (standardise Y))) hz he
  obtain ⟨S, hS⟩ := exists_cut two_ne_zero hA 0
  obtain ⟨T, hT⟩ := exists_cut two_ne_zero hB 0
  have hJ : center (gaussianWidth 1 (joint X Z)) ≠ 0 := by
    rw [Ne, gauss_center_zero' two_ne_zero one_pos]
    exact fun h => hX ((joint_inj _ _ _ _).1 (h 0 1)).1
  have hY' : center (gaussianWidth 1 (standardise Y)) ≠ 0 := by
    rw [Ne, gauss_center_zero two_ne_zero one_pos]
    exact fun h => hY (h 0 1)
  have hA0 : S ≠ 0 := by rw [cut_zero hA hS]; exact fun h => hJ ((resid_zero hz he).1 h)
  have hB0 : T ≠ 0 := by rw [cut_zero hB hT]; exact fun h => hY' ((resid_zero hz he).1 h)
  have hSp := hS.psd hA
  have hTp := hT.psd hB
  have hSr : ∀ i, ∑ j, S i j = 0 := by rw [cut_zero hA hS]; exact fun i => resid_rows hz he i
  have hTr : ∀ i, ∑ j, T i j = 0 := by rw [cut_zero hB hT]; exact fun i => resid_rows hz he i
  have hpos := stat_two hSp hTp hSr hTr hA0 hB0
  have h1 := hSr 0
  have h2 := hSr 1
  have h3 := hTr 0
  have h4 := hTr 1
  rw [Fin.sum_univ_two] at h1 h2 h3 h4
  have h5 := psd_symm hSp 0 1
  have h6 := psd_symm hTp 0 1
  simp only [hsicStat, Fin.sum_univ_two] at hpos
  have e1 : S 0 1 = -S 0 0 := by linarith
  have e2 : S 1 0 = -S 0 0 := by linarith
  have e3 : S 1 1 = S 0 0 := by linarith
  have e4 : T 0 1 = -T 0 0 := by linarith
  have e5 : T 1 0 = -T 0 0 := by linarith
  have e6 : T 1 1 = T 0 0 := by linarith
  rw [e1, e2, e3, e4, e5, e6] at hpos
  have hp0 : 0 < S 0 0 * T 0 0 := by linarith
  have hr := ckciTest_eq (stdEig_correct 2) two_ne_zero (inv_pinv 2) (cdf := cdf) zero_le_one he he zero_le_one zero_le_one rfl rfl hS hT
  rw [if_neg] at hr
  · exact ⟨_, _, hr⟩
  · simp only [Fin.sum_univ_two, e1, e2, e3, e4, e5, e6]
    rintro (h | h)
    · have : 0 < (S 0 0 * T 0 0) ^ 2 := pow_pos hp0 2
      nlinarith
    · linarith

/-- Two rows. -/
def ex2 : Data 2 1 := ![![0], ![1]]

theorem ex2_ne : ex2 0 ≠ ex2 1 := fun h => by
  have := congrFun h 0
  norm_num [ex2] at this

example (cdf : ℝ → ℝ → ℝ → ℝ) : ∃ p s k t : ℝ,
    ckciTest (stdEig 2) (fun M => M⁻¹) cdf (.kernel 1 (1 / 1000) (1 / 1000)) 0 1 1 ex2 ex2 ex2 = .ok (some p, s) ∧ 0 < k ∧ 0 < t ∧ p = 1 - cdf s k t := by
  obtain ⟨p, s, h⟩ := ex2_some cdf ex2 ex2 ex2 ex2_ne ex2_ne
  have hm : (ZMode.kernel 1 (1 / 1000) (1 / 1000) : ZMode 2 1).Correct := ⟨zero_le_one, by norm_num, by norm_num⟩
  obtain ⟨_, _, _, _, k, t, _, _, _, hk, ht, _, _, hp⟩ := c126_moments (stdEig_correct 2) two_ne_zero (inv_pinv 2) hm zero_le_one zero_le_one h
  exact ⟨p, s, k, t, h, hk, ht, hp⟩

example (cdf : ℝ → ℝ → ℝ → ℝ) : ∃ (p s : ℝ) (A B : Matrix (Fin 2) (Fin 2) ℝ) (k t : ℝ),
    ckciTest (stdEig 2) (fun M => M⁻¹) cdf (.kernel 1 (1 / 1000) (1 / 1000)) 0 1 1 ex2 ex2 ex2 = .ok (some p, s) ∧ k * t = ∑ i, A i i * B i i ∧
      p = 1 - cdf s k t := by
  obtain ⟨p, s, h⟩ := ex2_some cdf ex2 ex2 ex2 ex2_ne ex2_ne
  have hm : (ZMode.kernel 1 (1 / 1000) (1 / 1000) : ZMode 2 1).Correct := ⟨zero_le_one, by norm_num, by norm_num⟩
  obtain ⟨A, B, k, t, _, _, _, hp, _, _, h0⟩ := c126_threshold (stdEig_correct 2) two_ne_zero (inv_pinv 2) hm (le_refl 0) zero_le_one zero_le_one h
  exact ⟨p, s, A, B, k, t, h, (h0 rfl).1, hp⟩

/-- C126: another correct choice, with the eigenvectors multiplied by -1. -/
noncomputable def negEig (n : Nat) : Eig n where
  eigh K := (((stdEig n).eigh K).1, -((stdEig n).eigh K).2)
  order := orderOf

theorem negEig_correct (n : Nat) : (negEig n).Correct := by
  refine ⟨fun K h => ?_, (stdEig_correct n).perm, (stdEig_correct n).sorted⟩
  obtain ⟨h1, h2⟩ := (stdEig_correct n).eigh K h
  constructor
  · simp only [negEig, Matrix.transpose_neg, Matrix.neg_mul, Matrix.mul_neg, neg_neg]
    exact h1
  · simp only [negEig, Matrix.transpose_neg, Matrix.neg_mul, Matrix.mul_neg, neg_neg]
    exact h2

example (cdf : ℝ → ℝ → ℝ → ℝ) : ckciTest (stdEig 4) (fun M => M⁻¹) cdf (.kernel 1 (1 / 1000) (1 / 1000)) (1 / 100000) 1 1 ex4 ex4 ex4' =
    ckciTest (negEig 4) (fun M => M⁻¹) cdf (.kernel 1 (1 / 1000) (1 / 1000)) (1 / 100000) 1 1 ex4 ex4 ex4' :=
  c126_choice (stdEig_correct 4) (negEig_correct 4) (by norm_num) (inv_pinv 4) (inv_pinv 4) cdf zero_le_one (by norm_num) (by norm_num) _ zero_le_one
    zero_le_one _ _ _

/-- C127. -/
example (cdf : ℝ → ℝ → ℝ → ℝ) : ckciTest (stdEig 4) (fun M => M⁻¹) cdf (.kernel 1 (1 / 1000) (1 / 1000)) (1 / 100000) 1 1
    (fun i k => -2 * ex4 i k + 7 : Data 4 1) (fun i k => 3 * ex4 i k + 1 : Data 4 1) (fun i k => 5 * ex4' i k + 0 : Data 4 2) =
    ckciTest (stdEig 4) (fun M => M⁻¹) cdf (.kernel 1 (1 / 1000) (1 / 1000)) (1 / 100000) 1 1 ex4 ex4 ex4' :=
  c127_affine _ _ _ _ _ _ _ _ _ ex4 ex4 ex4' (a := fun _ => -2) (fun _ => by norm_num) (fun _ => 7) (a' := fun _ => 3) (fun _ => by norm_num)
    (fun _ => 1) (c := fun _ => 5) (fun _ => by norm_num) (fun _ => 0)

example (cdf : ℝ → ℝ → ℝ → ℝ) : ckciTest (stdEig 4) (fun M => M⁻¹) cdf (.kernel 1 (1 / 1000) (1 / 1000)) (1 / 100000) 1 1
    (fun i k => ex4 (Equiv.swap 0 2 i) k : Data 4 1) (fun i k => ex4 (Equiv.swap 0 2 i) k : Data 4 1) (fun i k => ex4' (Equiv.swap 0 2 i) k : Data 4 2) =
    ckciTest (stdEig 4) (fun M => M⁻¹) cdf (.kernel 1 (1 / 1000) (1 / 1000)) (1 / 100000) 1 1 ex4 ex4 ex4' :=
  c127_perm (stdEig_correct 4) (by norm_num) (inv_pinv 4) cdf zero_le_one (by norm_num) (by norm_num) _ zero_le_one zero_le_one ex4 ex4 ex4'
    (Equiv.swap 0 2)

/-- C128. -/
example (cdf : ℝ → ℝ → ℝ → ℝ) : ckciTest (stdEig 2) (fun M => M⁻¹) cdf (.kernel 1 (1 / 1000) (1 / 1000)) (1 / 100000) 1 1 ex2 (fun _ _ => 4 : Data 2 1) ex2 ≠
    ckciTest (stdEig 2) (fun M => M⁻¹) cdf (.kernel 1 (1 / 1000) (1 / 1000)) (1 / 100000) 1 1 (fun _ _ => 4 : Data 2 1) ex2 ex2 := by
  obtain ⟨h1, p, s, hs, h2⟩ := c128_false (stdEig_correct 2) (inv_pinv 2) cdf (wz := 1) (eps := 1 / 1000) (w := 1) zero_le_one (by norm_num) one_pos
    (1 / 100000) ex2 (fun _ _ => 4) ex2 ex2_ne rfl ex2_ne
  rw [h1, h2]
  intro h
  simp only [Except.ok.injEq, Prod.mk.injEq] at h
  linarith [h.2]

example (cdf : ℝ → ℝ → ℝ → ℝ) : ckciTest (stdEig 4) (fun M => M⁻¹) cdf (.kernel 1 (1 / 1000) (1 / 10)) (1 / 100000) 1 2 ex4 ex4' (fun _ _ => 4 : Data 4 1) =
    ckciTest (stdEig 4) (fun M => M⁻¹) cdf (.kernel 1 (1 / 10) (1 / 1000)) (1 / 100000) 2 1 ex4' ex4 (fun _ _ => 4 : Data 4 1) :=
  c128_partial (stdEig_correct 4) (by norm_num) (inv_pinv 4) cdf zero_le_one (by norm_num) (by norm_num) _ zero_le_one zero_le_two _ _ _
    fun _ _ => rfl

/-- C130. -/
example (draw : Nat → Nat → ℝ) (N : Nat) : ukciSpectral true stdVals draw N (1 / 1000000) 1 1 ex4 (fun _ _ => 4 : Data 4 1) = .ok (0, 0) :=
  ((c130_constant stdVals_correct (by norm_num) draw N (1 / 1000000) one_pos one_pos ex4 (fun _ _ => 4 : Data 4 1) fun _ _ => rfl).1 true
    (by norm_num)).1

example (draw : Nat → Nat → ℝ) (N : Nat) : ∃ (p s : ℝ) (ws : List ℝ), ukciSpectral false stdVals draw N 0 1 1 ex4 ex4' = .ok (p, s) ∧ (∀ w ∈ ws, 0 < w) ∧
    p = ((List.range N).countP fun k => decide (s < (∑ i : Fin ws.length, ws.get i * draw i k) / (4 : Nat))) / (N : ℝ) := by
  have h : ∃ r, ukciSpectral false stdVals draw N 0 1 1 ex4 ex4' = .ok r := by
    have hl : ∀ K : Matrix (Fin 4) (Fin 4) ℝ, ∃ a l, ((stdVals 4 K).insertionSort (· ≥ ·)).take 4 = a :: l := by
      intro K
      have : (((stdVals 4 K).insertionSort (· ≥ ·)).take 4).length = 4 := by
        rw [List.length_take, List.length_insertionSort, stdVals, List.length_ofFn]
        rfl
      match hq : ((stdVals 4 K).insertionSort (· ≥ ·)).take 4, this with
      | a :: l, _ => exact ⟨a, l, rfl⟩
    obtain ⟨a, l, h1⟩ := hl (centerKernelMatrix (gaussianWidth 1 (standardise ex4)))
    obtain ⟨b, l', h2⟩ := hl (centerKernelMatrix (gaussianWidth 1 (standardise ex4')))
    simp only [ukciSpectral, spectralWeights]
    rw [if_neg (by norm_num)]
    change ∃ r, ((npMax ((((stdVals 4 _).insertionSort (· ≥ ·)).take 4).flatMap fun a => (((stdVals 4 _).insertionSort (· ≥ ·)).take 4).map fun b => a * b)
      >>= _) >>= _) = _
    rw [h1, h2, List.flatMap_cons, List.map_cons, List.cons_append]
    exact ⟨_, rfl⟩
  obtain ⟨⟨p, s⟩, h⟩ := h
  obtain ⟨_, _, ws, _, _, _, hw, _, _, hp⟩ := c130_unconditional stdVals_correct (by norm_num) zero_le_one zero_le_one h
  exact ⟨p, s, ws, h, hw, hp⟩

example (draw : Nat → Nat → ℝ) (N : Nat) : ∃ (p s : ℝ) (ws : List ℝ),
    ckciSpectral (stdEig 2) stdVals (fun M => M⁻¹) draw N (.kernel 1 (1 / 1000) (1 / 1000)) 0 1 1 ex2 ex2 ex2 = .ok (p, s) ∧ (∀ w ∈ ws, 0 < w) ∧
    p = ((List.range N).countP fun k => decide (s < ∑ i : Fin ws.length, ws.get i * draw i k)) / (N : ℝ) := by
  have hm : (ZMode.kernel 1 (1 / 1000) (1 / 1000) : ZMode 2 1).Correct := ⟨zero_le_one, by norm_num, by norm_num⟩
  have h : ∃ r, ckciSpectral (stdEig 2) stdVals (fun M => M⁻¹) draw N (.kernel 1 (1 / 1000) (1 / 1000)) 0 1 1 ex2 ex2 ex2 = .ok r := by
    obtain ⟨p, s, h⟩ := ex2_some (fun _ _ _ => 0) ex2 ex2 ex2 ex2_ne ex2_ne
    obtain ⟨r, hr, h⟩ := bind_ok h
    obtain ⟨u, hu, h⟩ := bind_ok h
    simp only [ckciSpectral, hr]
    change ∃ q, (getUuprod _ 0 r.2.1 r.2.2 >>= _) = _
    rw [hu]
    change ∃ q, (nullWeights stdVals 0 u.1 u.2 2 >>= _) = _
    have h0 : 0 < u.1.1 ∧ 0 < u.2 := by
      by_contra hc
      obtain ⟨vx, _, hu⟩ := bind_ok hu
      obtain ⟨vy, _, hu⟩ := bind_ok hu
      simp only [pure, Except.pure, Except.ok.injEq] at hu
      subst hu
      obtain ⟨_, hsz⟩ := uuProd_psd (uuCols vx vy)
      rw [uuCols_length] at hsz
      simp only [hsz] at hc
      have hz : vx.length * vy.length = 0 := by omega
      have hu0 : uuCols vx vy = [] := by
        rw [← List.length_eq_zero_iff, uuCols_length, hz]
      have ht := (uuProd_trace (uuCols vx vy)).1
      have hz2 : (gram ([] : List (Fin 2 → ℝ))).trace = 0 := by simp [gram, Matrix.trace]
      rw [hu0, hz2] at ht
      simp only [pure, Except.pure, Except.ok.injEq, Prod.mk.injEq, getKappa] at h
      rw [hu0, if_pos (Or.inr ht)] at h
      cases h.1
    have hne : ((stdVals u.1.1 u.1.2).insertionSort (· ≥ ·)).take (min 2 u.2) ≠ [] := by
      intro hc
      have := congrArg List.length hc
      rw [List.length_take, List.length_insertionSort, stdVals, List.length_ofFn, List.length_nil] at this
      omega
    obtain ⟨m, hm⟩ := npMax_some hne
    simp only [nullWeights, hm]
    exact ⟨_, rfl⟩
  obtain ⟨⟨p, s⟩, h⟩ := h
  obtain ⟨_, _, ws, _, hw, _, _, hp⟩ := c130_conditional (stdEig_correct 2) two_ne_zero stdVals_correct (inv_pinv 2) hm zero_le_one zero_le_one h
  exact ⟨p, s, ws, h, hw, hp⟩

end examples

end Cdmir.KTest
