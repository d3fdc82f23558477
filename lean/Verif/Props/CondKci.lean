import Verif.Lemmas.CondKci

/-! C125, C126, C127: the conditional kernel test of independence (`kernel_based.py`). -/

namespace Cdmir.KTest
open BigOperators

variable {n d e f : Nat}

/-- C125. With a given kernel for the condition the statistic is `Σ (Rx Kx Rx) ∘ (Ry Ky Ry)` with `R = 1 - Kz (Kz + eps)⁻¹`, the residual of kernel
ridge regression, for centred Gaussian kernel matrices; whether or not the two regularisation constants are equal (the code has two branches). -/
theorem c125_statistic {E : Eig n} {pinv : Matrix (Fin n) (Fin n) ℝ → Matrix (Fin n) (Fin n) ℝ} (hp : PinvCorrect pinv)
    {cdf : ℝ → ℝ → ℝ → ℝ} {wz epsx epsy : ℝ} (hwz : 0 ≤ wz) (hx : 0 < epsx) (hy : 0 < epsy) {thr wx wy : ℝ}
    {X : Data n d} {Y : Data n e} {Z : Data n f} {r : Option ℝ × ℝ} (h : ckciTest E pinv cdf (.kernel wz epsx epsy) thr wx wy X Y Z = .ok r) :
    ∃ Kx Ky Kz Rx Ry : Matrix (Fin n) (Fin n) ℝ,
      Kx = Spec.centring ℝ n * Matrix.of (fun i j => Real.exp (-(wx * ((∑ c, (standardise X i c - standardise X j c) ^ 2) +
        1 / 4 * ∑ c, (standardise Z i c - standardise Z j c) ^ 2)) / 2)) * Spec.centring ℝ n ∧
      Ky = Spec.centring ℝ n * Matrix.of (fun i j => Real.exp (-(wy * ∑ c, (standardise Y i c - standardise Y j c) ^ 2) / 2)) * Spec.centring ℝ n ∧
      Kz = Spec.centring ℝ n * Matrix.of (fun i j => Real.exp (-(wz * ∑ c, (standardise Z i c - standardise Z j c) ^ 2) / 2)) * Spec.centring ℝ n ∧
      Rx * (Kz + epsx • 1) = epsx • 1 ∧ Ry * (Kz + epsy • 1) = epsy • 1 ∧
      r.2 = ∑ i, ∑ j, (Rx * Kx * Rx) i j * (Ry * Ky * Ry) i j := by
  obtain ⟨s, hs, h⟩ := bind_ok h
  obtain ⟨u, _, h⟩ := bind_ok h
  rw [ckciStat_kernel hp E hwz hx hy] at hs
  simp only [Except.ok.injEq] at hs
  subst hs
  simp only [pure, Except.pure, Except.ok.injEq] at h
  subst h
  have hg : ∀ {d : Nat} (w : ℝ) (X : Data n d), center (gaussianWidth w X) =
      Spec.centring ℝ n * Matrix.of (fun i j => Real.exp (-(w * ∑ c, (X i c - X j c) ^ 2) / 2)) * Spec.centring ℝ n := by
    intro d w X
    unfold center
    rw [hMat_eq]
    congr 2
    ext i j
    simp only [gaussianWidth, sqDist, Matrix.of_apply]
    congr 1
    ring
  have hz := center_psd (gaussianWidth_psd hwz (standardise Z))
  have hr : ∀ {eps : ℝ}, 0 < eps → resid (center (gaussianWidth wz (standardise Z))) eps * (center (gaussianWidth wz (standardise Z)) + eps • 1) = eps • 1 := by
    intro eps he
    have hu := ridge_unit hz he
    rw [resid, Matrix.sub_mul, Matrix.one_mul, Matrix.mul_assoc, Matrix.nonsing_inv_mul _ hu, Matrix.mul_one, add_sub_cancel_left]
  refine ⟨_, _, _, _, _, ?_, hg wy _, hg wz _, hr hx, hr hy, rfl⟩
  rw [hg]
  congr 3
  ext i j
  congr 4
  rw [Fin.sum_univ_add, Finset.mul_sum]
  congr 1
  · exact Finset.sum_congr rfl fun c _ => by simp [joint]
  · exact Finset.sum_congr rfl fun c _ => by simp [joint]; ring

/-- C125. In both modes for the condition, with and without approximation, the statistic is not negative and the p-value, if it is a number, lies
between 0 and 1. -/
theorem c125_range {E : Eig n} (hE : E.Correct) {pinv : Matrix (Fin n) (Fin n) ℝ → Matrix (Fin n) (Fin n) ℝ} (hp : PinvCorrect pinv)
    {cdf : ℝ → ℝ → ℝ → ℝ} (hcdf : ∀ x k t, 0 < k → 0 < t → 0 ≤ cdf x k t ∧ cdf x k t ≤ 1) {mode : ZMode n f} (hm : mode.Correct)
    {thr wx wy : ℝ} (hx : 0 ≤ wx) (hy : 0 ≤ wy) (X : Data n d) (Y : Data n e) (Z : Data n f) :
    (∀ r, ckciTest E pinv cdf mode thr wx wy X Y Z = .ok r → 0 ≤ r.2 ∧ ∀ p, r.1 = some p → 0 ≤ p ∧ p ≤ 1) ∧
    (∀ eigvalsh draw N r, ckciSpectral E eigvalsh pinv draw N mode thr wx wy X Y Z = .ok r → 0 ≤ r.2 ∧ 0 ≤ r.1 ∧ r.1 ≤ 1) := by
  constructor
  · intro r h
    obtain ⟨s, hs, h⟩ := bind_ok h
    obtain ⟨u, hu, h⟩ := bind_ok h
    obtain ⟨h1, h2, h3⟩ := ckciStat_ok hp hm hx hy hs
    simp only [pure, Except.pure, Except.ok.injEq] at h
    subst h
    refine ⟨by simp only [h1]; exact stat_nonneg h2 h3, fun p hp' => ?_⟩
    have hn : n ≠ 0 := by
      rintro rfl
      obtain ⟨c, hc, _⟩ := bind_ok hu
      obtain ⟨l, hl, _⟩ := bind_ok hc
      obtain ⟨m, hm', _⟩ := bind_ok hl
      have := (hE.perm (E.eigh ((1 / 2 : ℝ) • (s.2.1 + s.2.1.transpose))).1).length_eq
      simp only [List.finRange_zero, List.length_nil, List.length_eq_zero_iff] at this
      simp only [sortedPairs, this] at hm'
      cases hm'
    obtain ⟨u', S, T, hu', hS, hT, htr, hsq⟩ := getUuprod_ok hE hn (thr := thr) h2 h3
    rw [hu'] at hu
    cases hu
    simp only [Option.map_eq_some_iff] at hp'
    obtain ⟨kt, hk, rfl⟩ := hp'
    simp only [getKappa, htr, hsq] at hk
    split at hk
    · cases hk
    rename_i hne
    rw [not_or] at hne
    cases hk
    have hm0 : 0 ≤ ∑ t, S t t * T t t := Finset.sum_nonneg fun t _ => mul_nonneg (hS.psd h2).diag_nonneg (hT.psd h3).diag_nonneg
    have hv0 : 0 ≤ 2 * ∑ s, ∑ t, (S s t * T s t) ^ 2 :=
      mul_nonneg zero_le_two (Finset.sum_nonneg fun s _ => Finset.sum_nonneg fun t _ => sq_nonneg _)
    have hm1 := lt_of_le_of_ne hm0 (Ne.symm hne.2)
    have hv1 := lt_of_le_of_ne hv0 (Ne.symm hne.1)
    obtain ⟨a, b⟩ := hcdf s.1 _ _ (div_pos (pow_pos hm1 2) hv1) (div_pos hv1 hm1)
    constructor <;> linarith
  · intro eigvalsh draw N r h
    obtain ⟨s, hs, h⟩ := bind_ok h
    obtain ⟨u, hu, h⟩ := bind_ok h
    obtain ⟨w, hw, h⟩ := bind_ok h
    obtain ⟨h1, h2, h3⟩ := ckciStat_ok hp hm hx hy hs
    simp only [pure, Except.pure, Except.ok.injEq] at h
    subst h
    refine ⟨by simp only [h1]; exact stat_nonneg h2 h3, ?_, ?_⟩
    · exact div_nonneg (Nat.cast_nonneg _) (Nat.cast_nonneg _)
    · refine div_le_one_of_le₀ ?_ (Nat.cast_nonneg _)
      have := List.length_filter_le (fun x => decide (s.1 < x)) (nullSamples draw N w)
      simp only [nullSamples, List.length_map, List.length_range] at this
      exact_mod_cast this

/-- C126. A p-value that is a number is the upper tail, at the statistic, of the gamma distribution with mean `Σ Sₜₜ Tₜₜ` and variance
`2 Σ (Sₛₜ Tₛₜ)²`, where `S` and `T` are the two residual kernel matrices without their eigenvalues up to the largest one times the threshold:
neither the branch on the size of `uu`, nor the order, nor the choice of the eigenvectors plays a role. -/
theorem c126_moments {E : Eig n} (hE : E.Correct) (hn : n ≠ 0) {pinv : Matrix (Fin n) (Fin n) ℝ → Matrix (Fin n) (Fin n) ℝ} (hp : PinvCorrect pinv)
    {cdf : ℝ → ℝ → ℝ → ℝ} {mode : ZMode n f} (hm : mode.Correct) {thr wx wy : ℝ} (hx : 0 ≤ wx) (hy : 0 ≤ wy)
    {X : Data n d} {Y : Data n e} {Z : Data n f} {p s : ℝ} (h : ckciTest E pinv cdf mode thr wx wy X Y Z = .ok (some p, s)) :
    ∃ A B S T : Matrix (Fin n) (Fin n) ℝ, ∃ k t : ℝ, ckciStat E pinv mode thr wx wy X Y Z = .ok (s, A, B) ∧ IsCut thr A S ∧ IsCut thr B T ∧
      0 < k ∧ 0 < t ∧ k * t = ∑ i, S i i * T i i ∧ k * t ^ 2 = 2 * ∑ i, ∑ j, (S i j * T i j) ^ 2 ∧ p = 1 - cdf s k t := by
  obtain ⟨⟨s', A, B⟩, hs, h⟩ := bind_ok h
  obtain ⟨u, hu, h⟩ := bind_ok h
  obtain ⟨h1, h2, h3⟩ := ckciStat_ok hp hm hx hy hs
  obtain ⟨u', S, T, hu', hS, hT, htr, hsq⟩ := getUuprod_ok hE hn (thr := thr) h2 h3
  rw [hu'] at hu
  cases hu
  simp only [pure, Except.pure, Except.ok.injEq, Prod.mk.injEq, Option.map_eq_some_iff] at h
  obtain ⟨⟨kt, hk, rfl⟩, rfl⟩ := h
  simp only [getKappa, htr, hsq] at hk
  split at hk
  · cases hk
  rename_i hne
  rw [not_or] at hne
  cases hk
  have hm0 : 0 ≤ ∑ t, S t t * T t t := Finset.sum_nonneg fun t _ => mul_nonneg (hS.psd h2).diag_nonneg (hT.psd h3).diag_nonneg
  have hv0 : 0 ≤ 2 * ∑ s, ∑ t, (S s t * T s t) ^ 2 :=
    mul_nonneg zero_le_two (Finset.sum_nonneg fun s _ => Finset.sum_nonneg fun t _ => sq_nonneg _)
  have hm1 := lt_of_le_of_ne hm0 (Ne.symm hne.2)
  have hv1 := lt_of_le_of_ne hv0 (Ne.symm hne.1)
  refine ⟨A, B, S, T, _, _, hs, hS, hT, div_pos (pow_pos hm1 2) hv1, div_pos hv1 hm1, ?_, ?_, rfl⟩
  · generalize ∑ i, S i i * T i i = a at *
    generalize 2 * ∑ s, ∑ t, (S s t * T s t) ^ 2 = b at *
    field_simp
  · generalize ∑ i, S i i * T i i = a at *
    generalize 2 * ∑ s, ∑ t, (S s t * T s t) ^ 2 = b at *
    field_simp

/-- The result in the approximate mode with a given kernel, without a choice of eigenvectors. -/
theorem ckciTest_eq {E : Eig n} (hE : E.Correct) (hn : n ≠ 0) {pinv : Matrix (Fin n) (Fin n) ℝ → Matrix (Fin n) (Fin n) ℝ} (hp : PinvCorrect pinv)
    {cdf : ℝ → ℝ → ℝ → ℝ} {wz epsx epsy : ℝ} (hwz : 0 ≤ wz) (hex : 0 < epsx) (hey : 0 < epsy) {thr wx wy : ℝ} (hx : 0 ≤ wx) (hy : 0 ≤ wy)
    {X : Data n d} {Y : Data n e} {Z : Data n f} {A B S T : Matrix (Fin n) (Fin n) ℝ}
    (hA : A = resid (center (gaussianWidth wz (standardise Z))) epsx * center (gaussianWidth wx (joint X Z)) *
      resid (center (gaussianWidth wz (standardise Z))) epsx)
    (hB : B = resid (center (gaussianWidth wz (standardise Z))) epsy * center (gaussianWidth wy (standardise Y)) *
      resid (center (gaussianWidth wz (standardise Z))) epsy) (hS : IsCut thr A S) (hT : IsCut thr B T) :
    ckciTest E pinv cdf (.kernel wz epsx epsy) thr wx wy X Y Z = .ok
      (if 2 * ∑ i, ∑ j, (S i j * T i j) ^ 2 = 0 ∨ ∑ i, S i i * T i i = 0 then none
        else some (1 - cdf (hsicStat A B) ((∑ i, S i i * T i i) ^ 2 / (2 * ∑ i, ∑ j, (S i j * T i j) ^ 2))
          ((2 * ∑ i, ∑ j, (S i j * T i j) ^ 2) / ∑ i, S i i * T i i)), hsicStat A B) := by
  have hz := center_psd (gaussianWidth_psd hwz (standardise Z))
  have h2 : A.PosSemidef := hA ▸ resid_psd (center_psd (gaussianWidth_psd hx _)) hz hex
  have h3 : B.PosSemidef := hB ▸ resid_psd (center_psd (gaussianWidth_psd hy _)) hz hey
  obtain ⟨u, S', T', hu, hS', hT', htr, hsq⟩ := getUuprod_ok hE hn (thr := thr) h2 h3
  obtain rfl := hS.unique hS'
  obtain rfl := hT.unique hT'
  have hs : ckciStat E pinv (.kernel wz epsx epsy) thr wx wy X Y Z = .ok (hsicStat A B, A, B) := by
    rw [ckciStat_kernel hp E hwz hex hey, hA, hB]
  simp only [ckciTest, hs]
  change (getUuprod E thr A B >>= _) = _
  rw [hu]
  change Except.ok _ = _
  congr 2
  simp only [getKappa, htr, hsq]
  split <;> rfl

theorem exists_cut (hn : n ≠ 0) {K : Matrix (Fin n) (Fin n) ℝ} (hK : K.PosSemidef) (thr : ℝ) : ∃ T, IsCut thr K T := by
  obtain ⟨c, _, hc⟩ := scaledCols_cut (stdEig_correct n) hn (thr := thr) hK
  exact ⟨_, hc⟩

/-- C126. Two correct implementations of the eigenvalue decomposition and of the inverse give the same p-value and the same statistic. -/
theorem c126_choice {E E' : Eig n} (hE : E.Correct) (hE' : E'.Correct) (hn : n ≠ 0)
    {pinv pinv' : Matrix (Fin n) (Fin n) ℝ → Matrix (Fin n) (Fin n) ℝ} (hp : PinvCorrect pinv) (hp' : PinvCorrect pinv')
    (cdf : ℝ → ℝ → ℝ → ℝ) {wz epsx epsy : ℝ} (hwz : 0 ≤ wz) (hex : 0 < epsx) (hey : 0 < epsy) (thr : ℝ) {wx wy : ℝ} (hx : 0 ≤ wx) (hy : 0 ≤ wy)
    (X : Data n d) (Y : Data n e) (Z : Data n f) :
    ckciTest E pinv cdf (.kernel wz epsx epsy) thr wx wy X Y Z = ckciTest E' pinv' cdf (.kernel wz epsx epsy) thr wx wy X Y Z := by
  have hz := center_psd (gaussianWidth_psd hwz (standardise Z))
  obtain ⟨S, hS⟩ := exists_cut hn (resid_psd (center_psd (gaussianWidth_psd hx (joint X Z))) hz hex) thr
  obtain ⟨T, hT⟩ := exists_cut hn (resid_psd (center_psd (gaussianWidth_psd hy (standardise Y))) hz hey) thr
  rw [ckciTest_eq hE hn hp hwz hex hey hx hy rfl rfl hS hT, ckciTest_eq hE' hn hp' hwz hex hey hx hy rfl rfl hS hT]

/-- Without a threshold nothing is cut. -/
theorem cut_zero {K T : Matrix (Fin n) (Fin n) ℝ} (hK : K.PosSemidef) (h : IsCut 0 K T) : T = K := by
  obtain ⟨w, V, m, h1, _, rfl⟩ := h
  conv_rhs => rw [← h1.2]
  congr 3
  funext i
  have h0 := eigen_nonneg hK h1 i
  by_cases hc : m * 0 < w i
  · rw [if_pos hc]
  · rw [if_neg hc]
    linarith

theorem trace_eigen {w : Fin n → ℝ} {V : Matrix (Fin n) (Fin n) ℝ} (h : V.transpose * V = 1) :
    (V * Matrix.diagonal w * V.transpose).trace = ∑ i, w i := by
  rw [Matrix.trace_mul_comm, ← Matrix.mul_assoc, h, Matrix.one_mul, Matrix.trace_diagonal]

/-- What is cut is small: between 0 and the threshold times the trace on the diagonal. -/
theorem cut_near {thr : ℝ} (ht : 0 ≤ thr) {K T : Matrix (Fin n) (Fin n) ℝ} (hK : K.PosSemidef) (h : IsCut thr K T) (i : Fin n) :
    0 ≤ K i i - T i i ∧ K i i - T i i ≤ thr * K.trace := by
  obtain ⟨w, V, m, h1, h2, rfl⟩ := h
  have hd : K i i - (V * Matrix.diagonal (fun i => if m * thr < w i then w i else 0) * V.transpose) i i =
      ∑ j, (if m * thr < w j then 0 else w j) * (V i j) ^ 2 := by
    conv_lhs => rw [← h1.2]
    rw [Matrix.mul_apply, Matrix.mul_apply, ← Finset.sum_sub_distrib]
    refine Finset.sum_congr rfl fun j _ => ?_
    rw [Matrix.mul_diagonal, Matrix.mul_diagonal, Matrix.transpose_apply]
    split <;> ring
  have hw : ∀ j, 0 ≤ w j := eigen_nonneg hK h1
  have hsum : ∑ j, (V i j) ^ 2 = 1 := by
    have := congrFun (congrFun h1.right i) i
    rw [Matrix.mul_apply, Matrix.one_apply_eq] at this
    rw [← this]
    exact Finset.sum_congr rfl fun j _ => by rw [Matrix.transpose_apply, sq]
  have hm : m ≤ K.trace := by
    rw [← h1.2, trace_eigen h1.1]
    obtain ⟨⟨k, rfl⟩, _⟩ := h2
    exact Finset.single_le_sum (fun j _ => hw j) (Finset.mem_univ k)
  rw [hd]
  refine ⟨Finset.sum_nonneg fun j _ => mul_nonneg (by split <;> [exact le_refl _; exact hw j]) (sq_nonneg _), ?_⟩
  calc ∑ j, (if m * thr < w j then 0 else w j) * (V i j) ^ 2 ≤ ∑ j, (m * thr) * (V i j) ^ 2 := by
        refine Finset.sum_le_sum fun j _ => mul_le_mul_of_nonneg_right ?_ (sq_nonneg _)
        have hm0 : 0 ≤ m := (hw j).trans (h2.2 j)
        split
        · positivity
        · rename_i h; exact not_lt.1 h
    _ = m * thr := by rw [← Finset.mul_sum, hsum, mul_one]
    _ ≤ thr * K.trace := by rw [mul_comm]; exact mul_le_mul_of_nonneg_left hm ht

/-- C126. The threshold moves the mean of the null distribution little: it is at most `Σ Aₜₜ Bₜₜ` for the residual kernel matrices `A` and `B` and at
least that minus `2 thr tr(A) tr(B)`. Without a threshold mean and variance are exactly `Σ Aₜₜ Bₜₜ` and `2 Σ (Aₛₜ Bₛₜ)²`. -/
theorem c126_threshold {E : Eig n} (hE : E.Correct) (hn : n ≠ 0) {pinv : Matrix (Fin n) (Fin n) ℝ → Matrix (Fin n) (Fin n) ℝ} (hp : PinvCorrect pinv)
    {cdf : ℝ → ℝ → ℝ → ℝ} {mode : ZMode n f} (hm : mode.Correct) {thr wx wy : ℝ} (ht : 0 ≤ thr) (hx : 0 ≤ wx) (hy : 0 ≤ wy)
    {X : Data n d} {Y : Data n e} {Z : Data n f} {p s : ℝ} (h : ckciTest E pinv cdf mode thr wx wy X Y Z = .ok (some p, s)) :
    ∃ A B : Matrix (Fin n) (Fin n) ℝ, ∃ k t : ℝ, ckciStat E pinv mode thr wx wy X Y Z = .ok (s, A, B) ∧ 0 < k ∧ 0 < t ∧ p = 1 - cdf s k t ∧
      k * t ≤ ∑ i, A i i * B i i ∧ ∑ i, A i i * B i i - 2 * thr * A.trace * B.trace ≤ k * t ∧
      (thr = 0 → k * t = ∑ i, A i i * B i i ∧ k * t ^ 2 = 2 * ∑ i, ∑ j, (A i j * B i j) ^ 2) := by
  obtain ⟨A, B, S, T, k, t, hs, hS, hT, hk, ht', hm1, hv1, hp1⟩ := c126_moments hE hn hp hm hx hy h
  obtain ⟨_, hA, hB⟩ := ckciStat_ok hp hm hx hy hs
  simp only at hA hB
  refine ⟨A, B, k, t, hs, hk, ht', hp1, ?_, ?_, ?_⟩
  · rw [hm1]
    refine Finset.sum_le_sum fun i _ => ?_
    have h1 := cut_near ht hA hS i
    have h2 := cut_near ht hB hT i
    exact mul_le_mul (by linarith) (by linarith) (hT.psd hB).diag_nonneg hA.diag_nonneg
  · rw [hm1, sub_le_iff_le_add, ← sub_le_iff_le_add', ← Finset.sum_sub_distrib]
    calc ∑ i, (A i i * B i i - S i i * T i i) ≤ ∑ i, (thr * A.trace * B i i + A i i * (thr * B.trace)) := by
          refine Finset.sum_le_sum fun i _ => ?_
          have h1 := cut_near ht hA hS i
          have h2 := cut_near ht hB hT i
          have a := hA.diag_nonneg (i := i)
          have b := hB.diag_nonneg (i := i)
          have c := (hS.psd hA).diag_nonneg (i := i)
          calc A i i * B i i - S i i * T i i = (A i i - S i i) * B i i + S i i * (B i i - T i i) := by ring
            _ ≤ _ := add_le_add (mul_le_mul_of_nonneg_right h1.2 b)
              ((mul_le_mul_of_nonneg_right (by linarith) h2.1).trans (mul_le_mul_of_nonneg_left h2.2 a))
      _ = 2 * thr * A.trace * B.trace := by
        rw [Finset.sum_add_distrib, ← Finset.mul_sum, ← Finset.sum_mul]
        have e1 : ∑ i, B i i = B.trace := rfl
        have e2 : ∑ i, A i i = A.trace := rfl
        rw [e1, e2]
        ring
  · rintro rfl
    rw [cut_zero hA hS, cut_zero hB hT] at hm1 hv1
    exact ⟨hm1, hv1⟩

theorem joint_dist (X : Data n d) (Z : Data n f) (i j : Fin n) :
    sqDist (joint X Z) i j = sqDist (standardise X) i j + 1 / 4 * sqDist (standardise Z) i j := by
  unfold sqDist
  rw [Fin.sum_univ_add, Finset.mul_sum]
  congr 1
  · exact Finset.sum_congr rfl fun c _ => by simp [joint]
  · exact Finset.sum_congr rfl fun c _ => by simp [joint]; ring

/-- C127. The conditional test with a given kernel does not change if columns are shifted, scaled or reflected. -/
theorem c127_affine (E : Eig n) (pinv : Matrix (Fin n) (Fin n) ℝ → Matrix (Fin n) (Fin n) ℝ) (cdf : ℝ → ℝ → ℝ → ℝ) (wz epsx epsy thr wx wy : ℝ)
    (X : Data n d) (Y : Data n e) (Z : Data n f) {a : Fin d → ℝ} (ha : ∀ k, a k ≠ 0) (b : Fin d → ℝ)
    {a' : Fin e → ℝ} (ha' : ∀ k, a' k ≠ 0) (b' : Fin e → ℝ) {c : Fin f → ℝ} (hc : ∀ k, c k ≠ 0) (b'' : Fin f → ℝ) :
    ckciTest E pinv cdf (.kernel wz epsx epsy) thr wx wy (fun i k => a k * X i k + b k : Data n d) (fun i k => a' k * Y i k + b' k : Data n e)
      (fun i k => c k * Z i k + b'' k : Data n f) = ckciTest E pinv cdf (.kernel wz epsx epsy) thr wx wy X Y Z := by
  have h0 : ∀ {d : Nat} (X : Data n d) {a : Fin d → ℝ}, (∀ k, a k ≠ 0) → ∀ (b : Fin d → ℝ) w,
      gaussianWidth w (standardise fun i k => a k * X i k + b k) = gaussianWidth w (standardise X) := by
    intro d X a ha b w
    unfold gaussianWidth
    rw [sqDist_affine X ha b]
  have h1 : ∀ w, gaussianWidth w (joint (fun i k => a k * X i k + b k) fun i k => c k * Z i k + b'' k) = gaussianWidth w (joint X Z) := by
    intro w
    funext i j
    simp only [gaussianWidth, joint_dist, sqDist_affine X ha b, sqDist_affine Z hc b'']
  simp only [ckciTest, ckciStat, h1, h0 Y ha' b', h0 Z hc b'']

theorem IsEigen.perm {K : Matrix (Fin n) (Fin n) ℝ} {w V} (h : IsEigen K w V) (σ : Equiv.Perm (Fin n)) :
    IsEigen (K.submatrix σ σ) w (V.submatrix σ id) := by
  constructor
  · rw [Matrix.transpose_submatrix]
    ext i j
    rw [← h.1, Matrix.mul_apply, Matrix.mul_apply]
    exact Equiv.sum_comp σ fun k => V.transpose i k * V k j
  · rw [← h.2, Matrix.transpose_submatrix]
    ext i j
    simp only [Matrix.mul_apply, Matrix.submatrix_apply, id, Matrix.transpose_apply]

theorem IsCut.perm {thr : ℝ} {K T : Matrix (Fin n) (Fin n) ℝ} (h : IsCut thr K T) (σ : Equiv.Perm (Fin n)) :
    IsCut thr (K.submatrix σ σ) (T.submatrix σ σ) := by
  obtain ⟨w, V, m, h1, h2, rfl⟩ := h
  refine ⟨w, V.submatrix σ id, m, h1.perm σ, h2, ?_⟩
  ext i j
  simp only [Matrix.submatrix_apply, Matrix.transpose_submatrix, Matrix.mul_apply, id, Matrix.transpose_apply]

theorem resid_perm (K : Matrix (Fin n) (Fin n) ℝ) (eps : ℝ) (σ : Equiv.Perm (Fin n)) :
    resid (K.submatrix σ σ) eps = (resid K eps).submatrix σ σ := by
  unfold resid
  have h1 : K.submatrix σ σ + eps • 1 = (K + eps • 1).submatrix σ σ := by
    ext i j
    simp [Matrix.one_apply]
  rw [h1, Matrix.inv_submatrix_equiv, Matrix.submatrix_mul_equiv]
  ext i j
  simp [Matrix.one_apply]

/-- C127. The order of the rows does not matter. -/
theorem c127_perm {E : Eig n} (hE : E.Correct) (hn : n ≠ 0) {pinv : Matrix (Fin n) (Fin n) ℝ → Matrix (Fin n) (Fin n) ℝ} (hp : PinvCorrect pinv)
    (cdf : ℝ → ℝ → ℝ → ℝ) {wz epsx epsy : ℝ} (hwz : 0 ≤ wz) (hex : 0 < epsx) (hey : 0 < epsy) (thr : ℝ) {wx wy : ℝ} (hx : 0 ≤ wx) (hy : 0 ≤ wy)
    (X : Data n d) (Y : Data n e) (Z : Data n f) (σ : Equiv.Perm (Fin n)) :
    ckciTest E pinv cdf (.kernel wz epsx epsy) thr wx wy (fun i k => X (σ i) k : Data n d) (fun i k => Y (σ i) k : Data n e)
      (fun i k => Z (σ i) k : Data n f) = ckciTest E pinv cdf (.kernel wz epsx epsy) thr wx wy X Y Z := by
  have h0 : ∀ {d : Nat} (X : Data n d) w, gaussianWidth w (standardise fun i k => X (σ i) k) = (gaussianWidth w (standardise X)).submatrix σ σ := by
    intro d X w
    ext i j
    simp only [gaussianWidth, Matrix.submatrix_apply, sqDist, standardise_perm]
  have h1 : ∀ w, gaussianWidth w (joint (fun i k => X (σ i) k) fun i k => Z (σ i) k) = (gaussianWidth w (joint X Z)).submatrix σ σ := by
    intro w
    ext i j
    simp only [gaussianWidth, Matrix.submatrix_apply, joint_dist]
    simp only [sqDist, standardise_perm]
  have hz := center_psd (gaussianWidth_psd hwz (standardise Z))
  obtain ⟨S, hS⟩ := exists_cut hn (resid_psd (center_psd (gaussianWidth_psd hx (joint X Z))) hz hex) thr
  obtain ⟨T, hT⟩ := exists_cut hn (resid_psd (center_psd (gaussianWidth_psd hy (standardise Y))) hz hey) thr
  have hA := hS.perm σ
  have hB := hT.perm σ
  rw [ckciTest_eq hE hn hp hwz hex hey hx hy rfl rfl hS hT,
    ckciTest_eq hE hn hp hwz hex hey hx hy ?_ ?_ hA hB]
  · have hstat : ∀ K L : Matrix (Fin n) (Fin n) ℝ, hsicStat (K.submatrix σ σ) (L.submatrix σ σ) = hsicStat K L := fun K L =>
      sum_perm (fun i j => K i j * L i j) σ
    have h2 : ∑ i, ∑ j, (S.submatrix σ σ i j * T.submatrix σ σ i j) ^ 2 = ∑ i, ∑ j, (S i j * T i j) ^ 2 :=
      sum_perm (fun i j => (S i j * T i j) ^ 2) σ
    have h3 : ∑ i, S.submatrix σ σ i i * T.submatrix σ σ i i = ∑ i, S i i * T i i := Equiv.sum_comp σ fun i => S i i * T i i
    rw [hstat, h2, h3]
  · rw [h1, h0 Z, center_perm, center_perm, resid_perm, Matrix.submatrix_mul_equiv, Matrix.submatrix_mul_equiv]
  · rw [h0 Y, h0 Z, center_perm, center_perm, resid_perm, Matrix.submatrix_mul_equiv, Matrix.submatrix_mul_equiv]

end Cdmir.KTest
