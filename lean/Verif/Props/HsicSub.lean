import Verif.Model.HsicSub
import Verif.Props.HsicU
import Verif.Props.HsicV
import Verif.Props.KernelZero
import Verif.Lemmas.CondKci
import Mathlib.LinearAlgebra.Matrix.SchurComplement

/-! Property C164: the HSIC statistics by columns, and the features from an inducing set. -/

namespace Cdmir.HsicTest

open Finset KTest
open scoped MatrixOrder

noncomputable section

variable {m d : Nat}

/-- C164: without columns both raise; with columns the statistic is the mean of the statistics of the columns, or not a number if one of them is not. -/
theorem meanOver_eq (hd : d ≠ 0) (f : Fin d → ℝ) : meanOver (fun k => some (f k)) = .ok (some ((∑ k, f k) / d)) := by
  unfold meanOver
  rw [if_neg hd]
  have : allSome ((List.finRange d).map fun k => some (f k)) = some ((List.finRange d).map f) := by
    generalize List.finRange d = l
    induction l with
    | nil => rfl
    | cons a t ih =>
      unfold allSome at ih ⊢
      rw [List.map_cons, List.mapM_cons, ih]
      rfl
  rw [this]
  change Except.ok (some (_ / (d : ℝ))) = _
  rw [show ((List.finRange d).map f).sum = ∑ k, f k from (Fin.sum_univ_def f).symm]

theorem meanOver_some {f : Fin d → Option ℝ} {r : ℝ} (h : meanOver f = .ok (some r)) : d ≠ 0 ∧ ∃ g : Fin d → ℝ, (∀ k, f k = some (g k)) ∧
    r = (∑ k, g k) / d := by
  have hd : d ≠ 0 := fun e => by
    unfold meanOver at h
    rw [if_pos e] at h
    cases h
  have hs : ∀ k, (f k).isSome := by
    intro k
    by_contra hn
    rw [Option.not_isSome_iff_eq_none] at hn
    have : allSome ((List.finRange d).map f) = none := by
      have hk : k ∈ List.finRange d := List.mem_finRange k
      generalize List.finRange d = l at hk
      induction l with
      | nil => simp at hk
      | cons a t ih =>
        unfold allSome at ih ⊢
        rw [List.map_cons, List.mapM_cons]
        rcases List.mem_cons.1 hk with rfl | hk
        · rw [hn]; rfl
        · rw [ih hk]
          cases f a <;> rfl
    unfold meanOver at h
    rw [if_neg hd, this] at h
    cases h
  refine ⟨hd, fun k => (f k).get (hs k), fun k => (Option.some_get _).symm, ?_⟩
  have e : f = fun k => some ((f k).get (hs k)) := funext fun k => (Option.some_get _).symm
  rw [e, meanOver_eq hd] at h
  exact (Option.some.inj (Except.ok.inj h)).symm

/-- C164: both statistics raise for a sample without columns, and return otherwise; they do not depend on the order of the columns. -/
theorem c164_returns (unbiased : Bool) (kx : Data m 1 → Mat m) (Ky : Mat m) (X : Data m d) :
    ((∃ r, subHsic unbiased kx Ky X = .ok r) ↔ d ≠ 0) ∧ ((∃ r, subDCor unbiased kx Ky X = .ok r) ↔ d ≠ 0) ∧
      ∀ σ : Equiv.Perm (Fin d), (∀ r, subHsic unbiased kx Ky X = .ok (some r) → subHsic unbiased kx Ky (fun i k => X i (σ k)) = .ok (some r)) ∧
        ∀ r, subDCor unbiased kx Ky X = .ok (some r) → subDCor unbiased kx Ky (fun i k => X i (σ k)) = .ok (some r) := by
  have h1 : ∀ f : Fin d → Option ℝ, (∃ r, meanOver f = .ok r) ↔ d ≠ 0 := by
    intro f
    unfold meanOver
    by_cases hd : d = 0
    · rw [if_pos hd]
      exact ⟨fun ⟨r, h⟩ => (by cases h), fun h => absurd hd h⟩
    · rw [if_neg hd]
      exact ⟨fun _ => hd, fun _ => ⟨_, rfl⟩⟩
  have h2 : ∀ (f : Fin d → Option ℝ) (σ : Equiv.Perm (Fin d)) (r : ℝ), meanOver f = .ok (some r) → meanOver (fun k => f (σ k)) = .ok (some r) := by
    intro f σ r h
    obtain ⟨hd, g, hg, rfl⟩ := meanOver_some h
    simp only [hg]
    rw [meanOver_eq hd fun k => g (σ k), Equiv.sum_comp σ g]
  exact ⟨h1 _, h1 _, fun σ => ⟨fun r h => h2 _ σ r h, fun r h => h2 _ σ r h⟩⟩

/-- C164: the biased statistic by columns is not negative, and zero exactly if it is zero for every column; the distance correlation by columns lies
in [0, 1] (biased) or [-1, 1]. -/
theorem c164_range {kx : Data m 1 → Mat m} {Ky : Mat m} (X : Data m d) :
    ((∀ x, (kx x).PosSemidef) → Ky.PosSemidef → d ≠ 0 → ∃ r, subHsic false kx Ky X = .ok (some r) ∧ 0 ≤ r ∧
      (r = 0 ↔ ∀ k, vStat (kx (column X k)) Ky = 0)) ∧
    ((∀ x, (kx x).PosSemidef) → Ky.PosSemidef → ∀ r, subDCor false kx Ky X = .ok (some r) → 0 ≤ r ∧ r ≤ 1) ∧
    ((∀ x, (kx x).IsSymm) → Ky.IsSymm → ∀ r, subDCor true kx Ky X = .ok (some r) → |r| ≤ 1) := by
  refine ⟨fun hx hy hd => ?_, fun hx hy r h => ?_, fun hx hy r h => ?_⟩
  · have hd' : (0 : ℝ) < d := by exact_mod_cast Nat.pos_of_ne_zero hd
    have h0 : ∀ k, 0 ≤ vStat (kx (column X k)) Ky := fun k => c145_nonneg (hx _) hy
    refine ⟨_, meanOver_eq hd fun k => vStat (kx (column X k)) Ky, div_nonneg (sum_nonneg fun k _ => h0 k) hd'.le, ?_⟩
    rw [div_eq_zero_iff, or_iff_left hd'.ne', sum_eq_zero_iff_of_nonneg fun k _ => h0 k]
    simp
  · obtain ⟨hd, g, hg, rfl⟩ := meanOver_some h
    have hd' : (0 : ℝ) < d := by exact_mod_cast Nat.pos_of_ne_zero hd
    have hb : ∀ k, 0 ≤ g k ∧ g k ≤ 1 := fun k => (c145_dcor (hx _) hy).1 _ (hg k)
    refine ⟨div_nonneg (sum_nonneg fun k _ => (hb k).1) hd'.le, ?_⟩
    rw [div_le_one hd']
    calc ∑ k, g k ≤ ∑ _k : Fin d, (1 : ℝ) := sum_le_sum fun k _ => (hb k).2
      _ = d := by simp
  · obtain ⟨hd, g, hg, rfl⟩ := meanOver_some h
    have hd' : (0 : ℝ) < d := by exact_mod_cast Nat.pos_of_ne_zero hd
    have hb : ∀ k, |g k| ≤ 1 := fun k => c144_dcor (hx _) hy (hg k)
    rw [abs_div, abs_of_pos hd', div_le_one hd']
    calc |∑ k, g k| ≤ ∑ k, |g k| := abs_sum_le_sum_abs _ _
      _ ≤ ∑ _k : Fin d, (1 : ℝ) := sum_le_sum fun k _ => hb k
      _ = d := by simp

/-- C164: with Gaussian kernels the biased statistic by columns is zero exactly if every single column is empirically independent of `Y`. -/
theorem c164_columns (hm : m ≠ 0) (hd : d ≠ 0) {wx wy : ℝ} (hx : 0 < wx) (hy : 0 < wy) (X : Data m d) {e : Nat} (Y : Data m e) :
    subHsic false (gaussianWidth wx) (gaussianWidth wy Y) X = .ok (some 0) ↔ ∀ k, Product (fun i => X i k) Y := by
  obtain ⟨r, h, -, hr⟩ := (c164_range (kx := gaussianWidth wx) (Ky := gaussianWidth wy Y) X).1 (fun x => gaussianWidth_psd hx.le x)
    (gaussianWidth_psd hy.le Y) hd
  rw [h]
  have e1 : ((Except.ok (some r) : Except Err (Option ℝ)) = .ok (some 0)) ↔ r = 0 :=
    ⟨fun h => Option.some.inj (Except.ok.inj h), fun h => by rw [h]⟩
  rw [e1, hr]
  refine forall_congr' fun k => ?_
  rw [(c159_vstat hm hx hy (column X k) Y).1]
  have he : ∀ i j, column X k i = column X k j ↔ X i k = X j k := fun i j =>
    ⟨fun h => congrFun h 0, fun h => funext fun _ => h⟩
  exact ⟨product_inj he fun _ _ => Iff.rfl, product_inj (fun i j => (he i j).symm) fun _ _ => Iff.rfl⟩

/-- Three rows and two columns, against a sample that is not constant: both parts of the premises hold. -/
example : ∃ r, subHsic false (gaussianWidth 1) (gaussianWidth 1 (![![0], ![1], ![3]] : Data 3 1)) (![![0, 1], ![2, 1], ![1, 5]] : Data 3 2) = .ok (some r) ∧ 0 ≤ r :=
  let ⟨r, h, h0, _⟩ := (c164_range (kx := gaussianWidth 1) _).1 (fun x => gaussianWidth_psd zero_le_one x) (gaussianWidth_psd zero_le_one _) (by norm_num)
  ⟨r, h, h0⟩

/-- Two bits, and their sum modulo two. -/
def exTwoBits : Data 4 2 := ![![0, 0], ![0, 1], ![1, 0], ![1, 1]]

@[inherit_doc exTwoBits] def exXor : Data 4 1 := ![![0], ![1], ![1], ![0]]

/-- The four rows through small numbers. -/
theorem exXor_product : ∀ k, Product (fun i => exTwoBits i k) exXor := by
  have hi : Function.Injective fun (k : Nat) => (k : ℝ) := Nat.cast_injective
  have hi' : Function.Injective fun (k : Nat) => (fun _ => (k : ℝ) : Fin 1 → ℝ) := fun x y h => by
    have : (x : ℝ) = y := congrFun h 0
    exact_mod_cast this
  intro k
  have hY : ∀ i, exXor i = (fun (k : Nat) => (fun _ => (k : ℝ) : Fin 1 → ℝ)) ((![0, 1, 1, 0] : Fin 4 → Nat) i) := by
    intro i
    funext j
    fin_cases i <;> simp [exXor]
  have hX : ∀ i, exTwoBits i k = (fun (k : Nat) => (k : ℝ)) ((![![0, 0], ![0, 1], ![1, 0], ![1, 1]] : Fin 4 → Fin 2 → Nat) i k) := by
    intro i
    fin_cases i <;> fin_cases k <;> simp [exTwoBits]
  refine (product_factor hi hi' hX hY).2 ?_
  intro a b
  simp only [Nat.card_eq_fintype_card, Fintype.card_subtype]
  have key : ∀ k : Fin 2, ∀ i : Fin 4, (![![0, 0], ![0, 1], ![1, 0], ![1, 1]] : Fin 4 → Fin 2 → Nat) i k < 2 := by decide
  have key' : ∀ i : Fin 4, (![0, 1, 1, 0] : Fin 4 → Nat) i < 2 := by decide
  by_cases ha : a < 2
  · by_cases hb : b < 2
    · clear hX
      interval_cases a <;> interval_cases b <;> revert k <;> decide
    · rw [Finset.filter_false_of_mem (s := Finset.univ) (p := fun i : Fin 4 => (![0, 1, 1, 0] : Fin 4 → Nat) i = b) fun i _ h => hb (h ▸ key' i),
        Finset.filter_false_of_mem (s := Finset.univ) (p := fun i : Fin 4 => _ ∧ (![0, 1, 1, 0] : Fin 4 → Nat) i = b) fun i _ h => hb (h.2 ▸ key' i)]
      simp
  · rw [Finset.filter_false_of_mem (s := Finset.univ)
        (p := fun i : Fin 4 => (![![0, 0], ![0, 1], ![1, 0], ![1, 1]] : Fin 4 → Fin 2 → Nat) i k = a) fun i _ h => ha (h ▸ key k i),
      Finset.filter_false_of_mem (s := Finset.univ)
        (p := fun i : Fin 4 => (![![0, 0], ![0, 1], ![1, 0], ![1, 1]] : Fin 4 → Fin 2 → Nat) i k = a ∧ _) fun i _ h => ha (h.1 ▸ key k i)]
    simp

/-- **C164: a statistic by columns of zero does not mean independence.** Two bits and their sum modulo two: for all widths the statistic by columns is 0,
the statistic of the sample is not. -/
theorem c164_columns_false : ∃ (X : Data 4 2) (Y : Data 4 1), ∀ wx wy : ℝ, 0 < wx → 0 < wy →
    subHsic false (gaussianWidth wx) (gaussianWidth wy Y) X = .ok (some 0) ∧ vStat (gaussianWidth wx X) (gaussianWidth wy Y) ≠ 0 := by
  refine ⟨exTwoBits, exXor, fun wx wy hx hy => ⟨(c164_columns (by norm_num) (by norm_num) hx hy _ _).2 exXor_product, fun h => ?_⟩⟩
  have hp := (c159_vstat (by norm_num) hx hy exTwoBits exXor).1.1 h
  have hk := (c159_kci (fun _ _ _ => 0) (by norm_num) one_pos one_pos exTwoBits exXor).1.2 hp
  have hinj : Function.Injective exTwoBits := by
    intro i j e
    have e0 := congrFun e 0
    have e1 := congrFun e 1
    fin_cases i <;> fin_cases j <;> first | rfl | (exfalso; simp [exTwoBits] at e0 e1)
  have := congrFun ((c159_distinct (fun _ _ _ => 0) (by norm_num) exTwoBits exXor hinj).1 hk 0 1) 0
  simp [exXor] at this

/-! ### Features from an inducing set -/

section induced
variable {ρ σ : Type} {k : Nat}

/-- A kernel: all its matrices are positive semidefinite. -/
def IsKernel (ker : ρ → ρ → ℝ) : Prop := ∀ (n : Nat) (x : Fin n → ρ), (Matrix.of fun i j => ker (x i) (x j)).PosSemidef

/-- The kernel matrix of a sample. -/
def kmat (ker : ρ → ρ → ℝ) (x : Fin m → ρ) : Mat m := Matrix.of fun i j => ker (x i) (x j)

/-- What `inv(sqrtm(A))` is for a positive definite matrix. -/
def IsInvRoot (f : Mat k → Mat k) : Prop := ∀ A : Mat k, A.PosDef → (f A).IsSymm ∧ f A * f A = A⁻¹

theorem eps_pos : (0 : ℝ) < 1 / 10 ^ 6 := by norm_num

theorem ridged_posDef {A : Mat k} (h : A.PosSemidef) : (ridged A).PosDef :=
  Matrix.PosDef.posSemidef_add h (Matrix.PosDef.smul Matrix.PosDef.one eps_pos)

/-- The kernel matrix of the features. -/
theorem gram_induced {f : Mat k → Mat k} (hf : IsInvRoot f) {ker : ρ → ρ → ℝ} (hk : IsKernel ker) (x : Fin m → ρ) (z : Fin k → ρ) :
    gram (inducedFeatures f ker x z) =
      Matrix.of (fun i j => ker (x i) (z j)) * (ridged (kmat ker z))⁻¹ * (Matrix.of (fun i j => ker (x i) (z j)) : Matrix (Fin m) (Fin k) ℝ).transpose := by
  obtain ⟨h1, h2⟩ := hf (ridged (kmat ker z)) (ridged_posDef (hk k z))
  have e : inducedFeatures f ker x z = Matrix.of (fun i j => ker (x i) (z j)) * f (ridged (kmat ker z)) := rfl
  unfold gram
  rw [e, Matrix.transpose_mul, ← h2, show (f (ridged (kmat ker z))).transpose = f (ridged (kmat ker z)) from h1]
  simp only [Matrix.mul_assoc]

/-- The Gaussian kernel is a kernel. -/
theorem gauss_isKernel {d : Nat} {w : ℝ} (hw : 0 ≤ w) :
    IsKernel (fun a b : Fin d → ℝ => Real.exp (-(1 / 2) * (∑ k, (a k - b k) ^ 2) * w)) := by
  intro n x
  have := gaussianWidth_psd hw (x : Data n d)
  convert this using 1
  ext i j
  simp [gaussianWidth, sqDist, pow_two]

/-- A positive definite matrix has such an inverse root. -/
theorem invRoot_exists : ∃ f : (k : Nat) → Mat k → Mat k, ∀ k, IsInvRoot (f k) := by
  have key : ∀ (k : Nat) (A : Mat k), ∃ B : Mat k, A.PosDef → B.IsSymm ∧ B * B = A⁻¹ := by
    intro k A
    by_cases hA : A.PosDef
    · have hI := hA.inv.posSemidef
      obtain ⟨B, hB, -, e⟩ := CFC.exists_sqrt_of_isSelfAdjoint_of_quasispectrumRestricts (a := A⁻¹) hI.isHermitian
        (QuasispectrumRestricts.nnreal_of_nonneg hI.nonneg)
      refine ⟨B, fun _ => ⟨?_, e⟩⟩
      have := hB.star_eq
      rwa [Matrix.star_eq_conjTranspose, Matrix.conjTranspose_eq_transpose_of_trivial] at this
    · exact ⟨0, fun h => absurd h hA⟩
  choose f hf using key
  exact ⟨f, hf⟩

/-- **C164: the features from an inducing set never overstate the kernel.** Kernel matrix minus matrix of the features is positive semidefinite. -/
theorem c164_below {f : Mat k → Mat k} (hf : IsInvRoot f) {ker : ρ → ρ → ℝ} (hk : IsKernel ker) (x : Fin m → ρ) (z : Fin k → ρ) :
    (kmat ker x - gram (inducedFeatures f ker x z)).PosSemidef := by
  rw [gram_induced hf hk]
  set B : Matrix (Fin m) (Fin k) ℝ := Matrix.of (fun i j => ker (x i) (z j)) with hB
  have hD : (ridged (kmat ker z)).PosDef := ridged_posDef (hk k z)
  have : Invertible (ridged (kmat ker z)) := hD.isUnit.invertible
  have hsym : ∀ a b, ker a b = ker b a := by
    intro a b
    have := (hk 2 ![a, b]).isHermitian.apply 0 1
    simpa using this.symm
  have hj : (Matrix.fromBlocks (kmat ker x) B B.conjTranspose (ridged (kmat ker z))).PosSemidef := by
    have h1 := (hk (m + k) (Sum.elim x z ∘ finSumFinEquiv.symm)).submatrix (finSumFinEquiv (m := m) (n := k))
    have h2 : (Matrix.fromBlocks 0 0 0 ((1 / 10 ^ 6 : ℝ) • 1) : Matrix (Fin m ⊕ Fin k) (Fin m ⊕ Fin k) ℝ).PosSemidef := by
      have : (Matrix.fromBlocks 0 0 0 ((1 / 10 ^ 6 : ℝ) • 1) : Matrix (Fin m ⊕ Fin k) (Fin m ⊕ Fin k) ℝ) =
          Matrix.diagonal (Sum.elim (fun _ => 0) fun _ => (1 / 10 ^ 6 : ℝ)) := by
        ext a b
        rcases a with a | a <;> rcases b with b | b <;> simp [Matrix.diagonal_apply, Matrix.one_apply]
      rw [this]
      refine Matrix.PosSemidef.diagonal fun a => ?_
      rcases a with a | a
      · exact le_rfl
      · exact eps_pos.le
    have h3 := h1.add h2
    convert h3 using 1
    ext a b
    rcases a with a | a <;> rcases b with b | b <;> simp [hB, kmat, ridged, hsym]
  have := (Matrix.PosDef.fromBlocks₂₂ (kmat ker x) B hD).1 hj
  simpa using this

/-- **C164: with all rows in the inducing set the features give the kernel up to 0.000001.** -/
theorem c164_above {f : Mat k → Mat k} (hf : IsInvRoot f) {ker : ρ → ρ → ℝ} (hk : IsKernel ker) (x : Fin m → ρ) (z : Fin k → ρ)
    (h : ∀ i, ∃ j, z j = x i) (hinj : Function.Injective x) :
    ((1 / 10 ^ 6 : ℝ) • 1 - (kmat ker x - gram (inducedFeatures f ker x z))).PosSemidef := by
  rw [gram_induced hf hk]
  choose t ht using h
  have htj : Function.Injective t := fun a b e => hinj (by rw [← ht a, ← ht b, e])
  set A := kmat ker z with hA
  have hD : (ridged A).PosDef := ridged_posDef (hk k z)
  have hu : IsUnit (ridged A).det := (Matrix.isUnit_iff_isUnit_det _).1 hD.isUnit
  have hsym : ∀ a b, ker a b = ker b a := by
    intro a b
    have := (hk 2 ![a, b]).isHermitian.apply 0 1
    simpa using this.symm
  have e1 : kmat ker x = A.submatrix t t := by
    ext i j
    simp [hA, kmat, ht]
  have e2 : (Matrix.of (fun i j => ker (x i) (z j)) : Matrix (Fin m) (Fin k) ℝ) = A.submatrix t id := by
    ext i j
    simp [hA, kmat, ht]
  have e3 : A * (ridged A)⁻¹ * A = A - (1 / 10 ^ 6 : ℝ) • 1 + (1 / 10 ^ 6 : ℝ) ^ 2 • (ridged A)⁻¹ := by
    have hAr : A = ridged A - (1 / 10 ^ 6 : ℝ) • 1 := by simp [ridged]
    have h1 : A * (ridged A)⁻¹ = 1 - (1 / 10 ^ 6 : ℝ) • (ridged A)⁻¹ := by
      have : A * (ridged A)⁻¹ = (ridged A - (1 / 10 ^ 6 : ℝ) • 1) * (ridged A)⁻¹ := congrArg (· * (ridged A)⁻¹) hAr
      rw [this, Matrix.sub_mul, Matrix.mul_nonsing_inv _ hu, Matrix.smul_mul, Matrix.one_mul]
    have h2 : (ridged A)⁻¹ * A = 1 - (1 / 10 ^ 6 : ℝ) • (ridged A)⁻¹ := by
      have : (ridged A)⁻¹ * A = (ridged A)⁻¹ * (ridged A - (1 / 10 ^ 6 : ℝ) • 1) := congrArg ((ridged A)⁻¹ * ·) hAr
      rw [this, Matrix.mul_sub, Matrix.nonsing_inv_mul _ hu, Matrix.mul_smul, Matrix.mul_one]
    rw [h1, Matrix.sub_mul, Matrix.one_mul, Matrix.smul_mul, h2, smul_sub, smul_smul]
    rw [sub_sub_eq_add_sub, pow_two, add_sub_right_comm]
  have hAt : A.transpose = A := by
    ext i j
    simp [hA, kmat, hsym (z j)]
  have e4 : A.submatrix t id * (ridged A)⁻¹ * (A.submatrix t id).transpose = (A * (ridged A)⁻¹ * A).submatrix t t := by
    rw [Matrix.transpose_submatrix, hAt]
    ext i j
    simp [Matrix.mul_apply]
  have e5 : (1 : Mat m) = (1 : Mat k).submatrix t t := (Matrix.submatrix_one t htj).symm
  rw [e1, e2, e4, e3, e5]
  have : (1 / 10 ^ 6 : ℝ) • (1 : Mat k).submatrix t t - (A.submatrix t t - (A - (1 / 10 ^ 6 : ℝ) • 1 + (1 / 10 ^ 6 : ℝ) ^ 2 • (ridged A)⁻¹).submatrix t t) =
      ((1 / 10 ^ 6 : ℝ) ^ 2 • (ridged A)⁻¹).submatrix t t := by
    ext i j
    simp only [Matrix.sub_apply, Matrix.smul_apply, Matrix.submatrix_apply, Matrix.add_apply, smul_eq_mul]
    ring
  rw [this]
  exact (hD.inv.posSemidef.smul (by positivity)).submatrix t

/-- The biased statistic is linear in its first argument. -/
theorem vStat_sub (A B L : Mat m) : vStat (A - B) L = vStat A L - vStat B L := by
  unfold vStat
  rw [← sum_sub_distrib]
  refine sum_congr rfl fun i _ => ?_
  rw [← sum_sub_distrib]
  refine sum_congr rfl fun j _ => ?_
  have : centerKernelMatrix (A - B) i j = centerKernelMatrix A i j - centerKernelMatrix B i j := by
    simp only [centerKernelMatrix, colSums, vecSum, Matrix.sub_apply, sum_sub_distrib]
    ring
  rw [this]
  ring

theorem vStat_comm (A B : Mat m) : vStat A B = vStat B A := sum_congr rfl fun _ _ => sum_congr rfl fun _ _ => mul_comm _ _

/-- The statistic with the identity matrix is at most the trace. -/
theorem vStat_one {L : Mat m} (hL : L.PosSemidef) : vStat 1 L ≤ L.trace := by
  rcases Nat.eq_zero_or_pos m with rfl | hm
  · simp [vStat, Matrix.trace]
  have hm' : (m : ℝ) ≠ 0 := by exact_mod_cast hm.ne'
  have hs : ∀ i j, L i j = L j i := fun i j => by simpa using (hL.isHermitian.apply i j).symm
  have hc : ∀ i j, centerKernelMatrix (1 : Mat m) i j = (if i = j then 1 else 0) - 1 / m := by
    intro i j
    simp only [centerKernelMatrix, colSums, vecSum, Matrix.one_apply, sum_ite_eq', mem_univ, if_true, sum_const, card_univ, Fintype.card_fin,
      nsmul_eq_mul, mul_one]
    field_simp
    ring
  set S := ∑ j, ∑ i, L i j with hS
  have hpos : 0 ≤ S := by
    have := hL.dotProduct_mulVec_nonneg (fun _ => (1 : ℝ))
    simp only [dotProduct, Matrix.mulVec, star_trivial, one_mul, mul_one, Pi.star_apply] at this
    have e : S = ∑ i, ∑ j, L i j := sum_comm
    rwa [e]
  have hrow : ∀ i, ∑ j, L i j = ∑ j, L j i := fun i => sum_congr rfl fun j _ => hs i j
  have h1 : ∀ i, ∑ j, centerKernelMatrix L i j = 0 := by
    intro i
    simp only [centerKernelMatrix, colSums, vecSum, sum_add_distrib, sum_sub_distrib, ← sum_div, sum_const, card_univ, Fintype.card_fin, nsmul_eq_mul]
    rw [hrow]
    field_simp
    ring
  have h2 : vStat 1 L = ∑ i, centerKernelMatrix L i i := by
    unfold vStat
    refine sum_congr rfl fun i _ => ?_
    simp only [hc, sub_mul, sum_sub_distrib, ite_mul, one_mul, zero_mul, sum_ite_eq, mem_univ, if_true, ← mul_sum, h1, mul_zero, sub_zero]
  rw [h2]
  have h3 : ∑ i, centerKernelMatrix L i i = L.trace - S / m := by
    simp only [centerKernelMatrix, colSums, vecSum, Matrix.trace, Matrix.diag_apply, sum_add_distrib, sum_sub_distrib, ← sum_div, sum_const, card_univ,
      Fintype.card_fin, nsmul_eq_mul]
    rw [← hS]
    field_simp
    ring
  rw [h3]
  have : 0 ≤ S / m := div_nonneg hpos (Nat.cast_nonneg m)
  linarith

/-- **C164: the statistic of the features.** It is at most that of the kernels. If all rows, all different, are in the inducing sets, the difference is at
most 0.000001 times the sum of the traces: with kernels that are 1 on the diagonal, at most 0.000002 times the number of rows. -/
theorem c164_close {f : (k : Nat) → Mat k → Mat k} (hf : ∀ k, IsInvRoot (f k)) {kx : ρ → ρ → ℝ} {ky : σ → σ → ℝ} (hx : IsKernel kx) (hy : IsKernel ky)
    {nx ny : Nat} (gen : Option ((k : Nat) → (Fin k → ρ) × (Fin k → σ))) (idx : Fin (max nx ny) → Fin m) (x : Fin m → ρ) (y : Fin m → σ) (hm : 0 < m) :
    ∃ v, vStatRff (induced f kx ky nx ny gen idx x y).1 (induced f kx ky nx ny gen idx x y).2 = some v ∧ 0 ≤ v ∧
      m ^ 2 * v ≤ vStat (kmat kx x) (kmat ky y) ∧
      (gen = none → Function.Surjective idx → Function.Injective x → Function.Injective y →
        vStat (kmat kx x) (kmat ky y) - m ^ 2 * v ≤ 1 / 10 ^ 6 * ((kmat kx x).trace + (kmat ky y).trace)) := by
  set A := (induced f kx ky nx ny gen idx x y).1 with hA
  set B := (induced f kx ky nx ny gen idx x y).2 with hB
  obtain ⟨v, h1, h2, h3, -⟩ := c145_features hm A B
  refine ⟨v, h1, h3, ?_, ?_⟩
  all_goals rw [← h2]
  all_goals
    have hK : (kmat kx x).PosSemidef := hx m x
    have hL : (kmat ky y).PosSemidef := hy m y
    have hgA : (gram A).PosSemidef := by
      have := Matrix.posSemidef_self_mul_conjTranspose A
      rwa [Matrix.conjTranspose_eq_transpose_of_trivial] at this
    have bA : (kmat kx x - gram A).PosSemidef := c164_below (hf _) hx x _
    have bB : (kmat ky y - gram B).PosSemidef := c164_below (hf _) hy y _
    have e : vStat (kmat kx x) (kmat ky y) - vStat (gram A) (gram B) = vStat (kmat kx x - gram A) (kmat ky y) + vStat (kmat ky y - gram B) (gram A) := by
      rw [vStat_sub, vStat_sub, vStat_comm (kmat ky y), vStat_comm (gram B)]
      ring
  · have p1 := c145_nonneg bA hL
    have p2 := c145_nonneg bB hgA
    linarith
  · intro hg hs ix iy
    subst hg
    have tA : ((1 / 10 ^ 6 : ℝ) • 1 - (kmat kx x - gram A)).PosSemidef := c164_above (hf _) hx x (x ∘ idx) (fun i => (hs i).imp fun j h => congrArg x h) ix
    have tB : ((1 / 10 ^ 6 : ℝ) • 1 - (kmat ky y - gram B)).PosSemidef := c164_above (hf _) hy y (y ∘ idx) (fun i => (hs i).imp fun j h => congrArg y h) iy
    have q1 := c145_nonneg tA hL
    have q2 := c145_nonneg tB hgA
    have hsm : ∀ L : Mat m, vStat ((1 / 10 ^ 6 : ℝ) • 1) L = 1 / 10 ^ 6 * vStat 1 L := by
      intro L
      unfold vStat
      rw [mul_sum]
      refine sum_congr rfl fun i _ => ?_
      rw [mul_sum]
      refine sum_congr rfl fun j _ => ?_
      have : centerKernelMatrix ((1 / 10 ^ 6 : ℝ) • (1 : Mat m)) i j = 1 / 10 ^ 6 * centerKernelMatrix (1 : Mat m) i j := by
        simp only [centerKernelMatrix, colSums, vecSum, Matrix.smul_apply, smul_eq_mul, ← mul_sum]
        ring
      rw [this]
      ring
    rw [vStat_sub, hsm] at q1 q2
    have o1 := vStat_one hL
    have o2 := vStat_one hgA
    have o3 : (gram A).trace ≤ (kmat kx x).trace := by
      have := bA.trace_nonneg
      rw [Matrix.trace_sub] at this
      linarith
    rw [e]
    have w1 : vStat (kmat kx x - gram A) (kmat ky y) ≤ 1 / 10 ^ 6 * vStat 1 (kmat ky y) := by linarith [q1]
    have w2 : vStat (kmat ky y - gram B) (gram A) ≤ 1 / 10 ^ 6 * vStat 1 (gram A) := by linarith [q2]
    linarith

/-- Four rows, their sum modulo two, Gaussian kernels, an inducing set of five draws that contains all rows: the trace is 4 each. -/
example : ∃ (f : (k : Nat) → Mat k → Mat k) (v : ℝ), (∀ k, IsInvRoot (f k)) ∧
    let g := fun (d : Nat) (a b : Fin d → ℝ) => Real.exp (-(1 / 2) * (∑ k, (a k - b k) ^ 2) * 1)
    let y : Fin 4 → Fin 1 → ℝ := ![![0], ![1], ![5], ![7]]
    let p := induced f (g 2) (g 1) 5 3 none ![0, 1, 2, 3, 0] exTwoBits y
    vStatRff p.1 p.2 = some v ∧ vStat (kmat (g 2) exTwoBits) (kmat (g 1) y) - 16 * v ≤ 8 / 10 ^ 6 := by
  obtain ⟨f, hf⟩ := invRoot_exists
  have hx : Function.Injective exTwoBits := by
    intro i j e
    have e0 := congrFun e 0
    have e1 := congrFun e 1
    fin_cases i <;> fin_cases j <;> first | rfl | (exfalso; simp [exTwoBits] at e0 e1)
  have hy : Function.Injective (![![0], ![1], ![5], ![7]] : Fin 4 → Fin 1 → ℝ) := by
    intro i j e
    have e0 := congrFun e 0
    fin_cases i <;> fin_cases j <;> first | rfl | (exfalso; norm_num at e0)
  obtain ⟨v, h1, -, -, h2⟩ := c164_close hf (gauss_isKernel (d := 2) zero_le_one) (gauss_isKernel (d := 1) zero_le_one) (nx := 5) (ny := 3) none
    ![0, 1, 2, 3, 0] exTwoBits ![![0], ![1], ![5], ![7]] (by norm_num)
  refine ⟨f, v, hf, h1, ?_⟩
  have h3 := h2 rfl (by decide) hx hy
  have t : ∀ (d : Nat) (z : Fin 4 → Fin d → ℝ), (kmat (fun a b : Fin d → ℝ => Real.exp (-(1 / 2) * (∑ k, (a k - b k) ^ 2) * 1)) z).trace = 4 := by
    intro d z
    simp [kmat, Matrix.trace]
  rw [t, t] at h3
  norm_num at h3 ⊢
  exact h3

end induced
end
end Cdmir.HsicTest
