import Verif.Props.Kci
import Verif.Props.HsicWidth
import Verif.Props.HsicV
import Verif.Props.Anm
import Mathlib.Analysis.Matrix.Order
import Mathlib.LinearAlgebra.Vandermonde
import Mathlib.Algebra.Module.Submodule.Union

/-! C159: which samples have the statistic 0 in the kernel tests with Gaussian kernels. -/

namespace Cdmir.KTest
open BigOperators
open scoped MatrixOrder Kronecker Matrix

variable {n m d e : Nat}

/-- The sum over all other points of a Gaussian bump with the weights `z` is 0 at every point as soon as the quadratic form of `z` is 0. -/
theorem gauss_bumps (X : Data m d) {w : ℝ} (hw : 0 ≤ w) {z : Fin m → ℝ}
    (hz : ∑ i, ∑ j, z i * (Real.exp (-(w * sqDist X i j)) * z j) = 0) (v : Fin d → ℝ) :
    ∑ j, Real.exp (-(w * ∑ k, (v k - X j k) ^ 2)) * z j = 0 := by
  have hp := gauss_psd (Fin.cons v X : Data (m + 1) d) hw
  have h0 := (hp.dotProduct_mulVec_zero_iff (Fin.cons 0 z : Fin (m + 1) → ℝ)).1 (by
    simp only [dotProduct, Matrix.mulVec, star_trivial, Matrix.of_apply, Fin.sum_univ_succ, Fin.cons_zero, Fin.cons_succ, zero_mul, mul_zero,
      zero_add, sqDist]
    simp only [Finset.mul_sum]
    simpa only [sqDist, Finset.mul_sum] using hz)
  have h1 := congrFun h0 0
  simpa only [dotProduct, Matrix.mulVec, Matrix.of_apply, Fin.sum_univ_succ, Fin.cons_zero, Fin.cons_succ, mul_zero, zero_add, sqDist,
    Pi.zero_apply] using h1

/-- A Gaussian kernel matrix of different points is positive definite. -/
theorem gauss_posDef (X : Data m d) (hX : Function.Injective X) {w : ℝ} (hw : 0 < w) :
    (Matrix.of fun i j => Real.exp (-(w * sqDist X i j)) : Matrix (Fin m) (Fin m) ℝ).PosDef := by
  have hp := gauss_psd X hw.le
  refine Matrix.PosDef.of_dotProduct_mulVec_pos hp.isHermitian fun z hz => lt_of_le_of_ne (hp.dotProduct_mulVec_nonneg z) fun h => hz ?_
  have hq : ∑ i, ∑ j, z i * (Real.exp (-(w * sqDist X i j)) * z j) = 0 := by
    rw [h]
    simp only [dotProduct, Matrix.mulVec, star_trivial, Matrix.of_apply, Finset.mul_sum]
  obtain ⟨f, hf⟩ := Module.exists_dual_forall_apply_ne_zero (K := ℝ) (fun p : {p : Fin m × Fin m // p.1 ≠ p.2} => X p.1.1 - X p.1.2)
    (fun p => sub_ne_zero.2 fun h => p.2 (hX h))
  have hf' : Function.Injective fun j => Real.exp (2 * w * f (X j)) := by
    intro i j hij
    by_contra hne
    refine hf ⟨(i, j), hne⟩ ?_
    have := Real.exp_injective hij
    have h2 : f (X i) = f (X j) := mul_left_cancel₀ (by positivity : (2 * w) ≠ 0) this
    rw [map_sub, h2, sub_self]
  have hs : ∀ x : Fin d → ℝ, f x = ∑ k, x k * f (Pi.single k 1) := fun x => by
    conv_lhs => rw [← Finset.univ_sum_single x]
    rw [map_sum]
    refine Finset.sum_congr rfl fun k _ => ?_
    have : (Pi.single k (x k) : Fin d → ℝ) = x k • Pi.single k 1 := by
      rw [← Pi.single_smul, smul_eq_mul, mul_one]
    rw [this, map_smul, smul_eq_mul]
  have hv := Matrix.eq_zero_of_forall_pow_sum_mul_pow_eq_zero (v := fun j => Real.exp (-(w * ∑ k, X j k ^ 2)) * z j) hf' fun t => by
    have hb := gauss_bumps X hw.le hq fun k => (t : ℕ) * f (Pi.single k 1)
    have e : ∀ j, Real.exp (-(w * ∑ k, ((t : ℕ) * f (Pi.single k 1) - X j k) ^ 2)) * z j =
        Real.exp (-(w * ∑ k, ((t : ℕ) * f (Pi.single k 1)) ^ 2)) *
          (Real.exp (-(w * ∑ k, X j k ^ 2)) * z j * Real.exp (2 * w * f (X j)) ^ (t : ℕ)) := by
      intro j
      rw [← Real.exp_nat_mul]
      have : -(w * ∑ k, ((t : ℕ) * f (Pi.single k 1) - X j k) ^ 2) =
          -(w * ∑ k, ((t : ℕ) * f (Pi.single k 1)) ^ 2) + -(w * ∑ k, X j k ^ 2) + (t : ℕ) * (2 * w * f (X j)) := by
        rw [hs]
        simp only [Finset.mul_sum, ← Finset.sum_neg_distrib, ← Finset.sum_add_distrib]
        exact Finset.sum_congr rfl fun k _ => by ring
      rw [this, Real.exp_add, Real.exp_add]
      ring
    rw [Finset.sum_congr rfl fun j _ => e j, ← Finset.mul_sum] at hb
    exact (mul_eq_zero.1 hb).resolve_left (Real.exp_ne_zero _)
  funext j
  exact (mul_eq_zero.1 (congrFun hv j)).resolve_left (Real.exp_ne_zero _)

/-- Every sample is a list of different points, with a number of a point for every row. -/
theorem factor (X : Data n d) : ∃ (m : Nat) (f : Fin n → Fin m) (P : Data m d), Function.Injective P ∧ Function.Surjective f ∧ ∀ i, X i = P (f i) := by
  classical
  let E := Fintype.equivFin (Set.range X)
  refine ⟨_, fun i => E ⟨X i, i, rfl⟩, fun k => (E.symm k).1, ?_, ?_, ?_⟩
  · intro a b h
    exact E.symm.injective (Subtype.ext h)
  · intro k
    obtain ⟨i, hi⟩ := (E.symm k).2
    refine ⟨i, ?_⟩
    rw [← E.apply_symm_apply k]
    exact congrArg E (Subtype.ext hi)
  · intro i
    simp

/-- Sums over the rows, collected by the values of a function of the rows. -/
theorem sum_push {ι κ : Type*} [Fintype ι] [Fintype κ] [DecidableEq κ] (f : ι → κ) (h : ι → ℝ) (g : κ → ℝ) :
    ∑ p, (∑ q, if f q = p then h q else 0) * g p = ∑ q, h q * g (f q) := by
  simp only [Finset.sum_mul, ite_mul, zero_mul]
  rw [Finset.sum_comm]
  exact Finset.sum_congr rfl fun q _ => by simp

/-- The empirical distribution of the pairs of rows is the product of the two empirical distributions of the rows. -/
def Product {α β : Type*} (X : Fin n → α) (Y : Fin n → β) : Prop :=
  ∀ a b, n * Nat.card {i // X i = a ∧ Y i = b} = Nat.card {i // X i = a} * Nat.card {i // Y i = b}

theorem product_factor {α β γ δ : Type*} {X : Fin n → α} {Y : Fin n → β} {f : Fin n → γ} {g : Fin n → δ} {P : γ → α} {Q : δ → β}
    (hP : Function.Injective P) (hQ : Function.Injective Q) (hX : ∀ i, X i = P (f i)) (hY : ∀ i, Y i = Q (g i)) :
    Product X Y ↔ Product f g := by
  constructor
  · intro h u v
    have := h (P u) (Q v)
    simpa only [hX, hY, hP.eq_iff, hQ.eq_iff] using this
  · intro h a b
    by_cases ha : ∃ u, P u = a
    · by_cases hb : ∃ v, Q v = b
      · obtain ⟨u, rfl⟩ := ha
        obtain ⟨v, rfl⟩ := hb
        simpa only [hX, hY, hP.eq_iff, hQ.eq_iff] using h u v
      · have h1 : IsEmpty {i // Y i = b} := ⟨fun i => hb ⟨_, (hY i.1).symm.trans i.2⟩⟩
        have h2 : IsEmpty {i // X i = a ∧ Y i = b} := ⟨fun i => hb ⟨_, (hY i.1).symm.trans i.2.2⟩⟩
        rw [Nat.card_of_isEmpty, Nat.card_of_isEmpty (α := {i // Y i = b}), mul_zero, mul_zero]
    · have h1 : IsEmpty {i // X i = a} := ⟨fun i => ha ⟨_, (hX i.1).symm.trans i.2⟩⟩
      have h2 : IsEmpty {i // X i = a ∧ Y i = b} := ⟨fun i => ha ⟨_, (hX i.1).symm.trans i.2.1⟩⟩
      rw [Nat.card_of_isEmpty, Nat.card_of_isEmpty (α := {i // X i = a}), mul_zero, zero_mul]

/-- The sum of the entries of `H` over the pairs of rows with the values `u` and `v`. -/
theorem push_hMat {m' : Nat} (f : Fin n → Fin m) (g : Fin n → Fin m') (u : Fin m) (v : Fin m') :
    (∑ q : Fin n × Fin n, if (f q.1, g q.2) = (u, v) then hMat n q.1 q.2 else 0) =
      (Nat.card {i // f i = u ∧ g i = v} : ℝ) - (Nat.card {i // f i = u} : ℝ) * (Nat.card {i // g i = v} : ℝ) / n := by
  classical
  have h1 : (Nat.card {i // f i = u ∧ g i = v} : ℝ) = ∑ a, ∑ b, if f a = u ∧ g b = v then (1 : Matrix (Fin n) (Fin n) ℝ) a b else 0 := by
    rw [Nat.card_eq_fintype_card, Fintype.card_subtype, Finset.card_filter]
    push_cast
    refine Finset.sum_congr rfl fun a _ => ?_
    rw [Finset.sum_eq_single a]
    · simp
    · intro b _ hb
      simp [Matrix.one_apply_ne (Ne.symm hb)]
    · simp
  have h2 : (Nat.card {i // f i = u} : ℝ) * (Nat.card {i // g i = v} : ℝ) / n = ∑ a, ∑ b, if f a = u ∧ g b = v then 1 / (n : ℝ) else 0 := by
    rw [Nat.card_eq_fintype_card, Nat.card_eq_fintype_card, Fintype.card_subtype, Fintype.card_subtype, Finset.card_filter, Finset.card_filter]
    push_cast
    rw [Finset.sum_mul_sum, Finset.sum_div]
    refine Finset.sum_congr rfl fun a _ => ?_
    rw [Finset.sum_div]
    refine Finset.sum_congr rfl fun b _ => ?_
    by_cases ha : f a = u <;> by_cases hb : g b = v <;> simp [ha, hb]
  rw [h1, h2, ← Finset.sum_sub_distrib, Fintype.sum_prod_type]
  refine Finset.sum_congr rfl fun a _ => ?_
  rw [← Finset.sum_sub_distrib]
  refine Finset.sum_congr rfl fun b _ => ?_
  simp only [Prod.mk.injEq]
  by_cases h : f a = u ∧ g b = v
  · rw [if_pos h, if_pos h, if_pos h]
    simp [hMat]
  · rw [if_neg h, if_neg h, if_neg h, sub_zero]

theorem hMat_symm (i j : Fin n) : hMat n i j = hMat n j i := by
  have := congrFun (congrFun (hMat_transpose n) j) i
  simpa [Matrix.conjTranspose_apply] using this

/-- The statistic of two centred matrices as one sum over quadruples of rows. -/
theorem stat_four (K L : Matrix (Fin n) (Fin n) ℝ) : hsicStat (center K) (center L) =
    ∑ q : Fin n × Fin n, hMat n q.1 q.2 * ∑ q' : Fin n × Fin n, hMat n q'.1 q'.2 * (K q.1 q'.1 * L q.2 q'.2) := by
  by_cases hn : n = 0
  · subst hn
    simp [hsicStat]
  have hi : hMat n * hMat n = hMat n := by
    rw [hMat_eq]
    ext i j
    have hn' : (n : ℝ) ≠ 0 := by exact_mod_cast hn
    simp only [Spec.centring, Matrix.mul_apply]
    simp only [sub_mul, mul_sub, Finset.sum_sub_distrib, ite_mul, one_mul, zero_mul, mul_ite, mul_one, mul_zero, Finset.sum_ite_eq,
      Finset.sum_ite_eq', Finset.mem_univ, if_true, Finset.sum_const, Finset.card_univ, Fintype.card_fin, nsmul_eq_mul]
    field_simp
    ring
  have ht : hsicStat (center K) (center L) = (center K * (center L)ᵀ).trace := by
    simp only [hsicStat, Matrix.trace, Matrix.diag, Matrix.mul_apply, Matrix.transpose_apply]
  have hT : (hMat n)ᵀ = hMat n := by ext i j; exact hMat_symm j i
  have h2 : (center K * (center L)ᵀ).trace = (K * (hMat n * Lᵀ * hMat n)).trace := by
    unfold center
    rw [Matrix.transpose_mul, Matrix.transpose_mul, hT]
    calc (hMat n * K * hMat n * (hMat n * (Lᵀ * hMat n))).trace = (hMat n * (K * (hMat n * hMat n) * (Lᵀ * hMat n))).trace := by
          simp only [Matrix.mul_assoc]
      _ = (K * (hMat n * hMat n) * (Lᵀ * hMat n) * hMat n).trace := Matrix.trace_mul_comm _ _
      _ = (K * (hMat n * Lᵀ * (hMat n * hMat n))).trace := by rw [hi]; simp only [Matrix.mul_assoc, hi]
      _ = _ := by rw [hi]
  rw [ht, h2]
  simp only [Matrix.trace, Matrix.diag, Matrix.mul_apply, Matrix.transpose_apply, Fintype.sum_prod_type, Finset.mul_sum, Finset.sum_mul]
  refine Finset.sum_congr rfl fun a _ => ?_
  rw [Finset.sum_comm]
  refine Finset.sum_congr rfl fun b _ => Finset.sum_congr rfl fun c _ => Finset.sum_congr rfl fun t _ => ?_
  rw [hMat_symm b a]
  ring

/-- The statistic of two kernels that are positive definite on the different points is 0 exactly for a product. -/
theorem stat_zero (hn : n ≠ 0) {m' : Nat} {f : Fin n → Fin m} {g : Fin n → Fin m'} {A : Matrix (Fin m) (Fin m) ℝ} {B : Matrix (Fin m') (Fin m') ℝ}
    (hA : A.PosDef) (hB : B.PosDef) {K L : Matrix (Fin n) (Fin n) ℝ} (hK : ∀ i j, K i j = A (f i) (f j)) (hL : ∀ i j, L i j = B (g i) (g j)) :
    hsicStat (center K) (center L) = 0 ↔ Product f g := by
  have hn' : (n : ℝ) ≠ 0 := by exact_mod_cast hn
  let F : Fin n × Fin n → Fin m × Fin m' := fun q => (f q.1, g q.2)
  let ω : Fin m × Fin m' → ℝ := fun p => ∑ q : Fin n × Fin n, if F q = p then hMat n q.1 q.2 else 0
  have hS : hsicStat (center K) (center L) = star ω ⬝ᵥ (A ⊗ₖ B) *ᵥ ω := by
    have e1 : ∀ p, ((A ⊗ₖ B) *ᵥ ω) p = ∑ q' : Fin n × Fin n, hMat n q'.1 q'.2 * (A p.1 (f q'.1) * B p.2 (g q'.2)) := by
      intro p
      have := sum_push F (fun q => hMat n q.1 q.2) (fun p' => A p.1 p'.1 * B p.2 p'.2)
      rw [← this]
      simp only [Matrix.mulVec, dotProduct, Matrix.kroneckerMap_apply]
      exact Finset.sum_congr rfl fun p' _ => mul_comm _ _
    rw [stat_four]
    simp only [dotProduct, star_trivial, e1, hK, hL]
    exact (sum_push F (fun q => hMat n q.1 q.2)
      (fun p => ∑ q' : Fin n × Fin n, hMat n q'.1 q'.2 * (A p.1 (f q'.1) * B p.2 (g q'.2)))).symm
  have hz : hsicStat (center K) (center L) = 0 ↔ ω = 0 := by
    rw [hS]
    constructor
    · intro h
      by_contra h0
      exact ((hA.kronecker hB).dotProduct_mulVec_pos h0).ne' h
    · intro h
      rw [h]
      simp
  rw [hz, funext_iff]
  constructor
  · intro h u v
    have := h (u, v)
    change (∑ q : Fin n × Fin n, if (f q.1, g q.2) = (u, v) then hMat n q.1 q.2 else 0) = 0 at this
    rw [push_hMat, sub_eq_zero, eq_div_iff hn'] at this
    have h2 : (n : ℝ) * Nat.card {i // f i = u ∧ g i = v} = Nat.card {i // f i = u} * Nat.card {i // g i = v} := by rw [← this]; ring
    exact_mod_cast h2
  · rintro h ⟨u, v⟩
    change (∑ q : Fin n × Fin n, if (f q.1, g q.2) = (u, v) then hMat n q.1 q.2 else 0) = 0
    rw [push_hMat, sub_eq_zero, eq_div_iff hn']
    have h2 : (n : ℝ) * Nat.card {i // f i = u ∧ g i = v} = Nat.card {i // f i = u} * Nat.card {i // g i = v} := by exact_mod_cast h u v
    rw [← h2]
    ring

/-- Gaussian kernels. -/
theorem gauss_stat_zero (hn : n ≠ 0) {wx wy : ℝ} (hx : 0 < wx) (hy : 0 < wy) (X : Data n d) (Y : Data n e) {K L : Matrix (Fin n) (Fin n) ℝ}
    (hK : ∀ i j, K i j = Real.exp (-(wx * sqDist X i j))) (hL : ∀ i j, L i j = Real.exp (-(wy * sqDist Y i j))) :
    hsicStat (center K) (center L) = 0 ↔ Product X Y := by
  obtain ⟨m, f, P, hP, -, hX⟩ := factor X
  obtain ⟨m', g, Q, hQ, -, hY⟩ := factor Y
  rw [product_factor hP hQ hX hY]
  refine stat_zero hn (gauss_posDef P hP hx) (gauss_posDef Q hQ hy) (fun i j => ?_) (fun i j => ?_)
  · rw [hK, Matrix.of_apply, sqDist, sqDist, hX i, hX j]
  · rw [hL, Matrix.of_apply, sqDist, sqDist, hY i, hY j]

theorem product_inj {α β γ δ : Type*} {X : Fin n → α} {Y : Fin n → β} {X' : Fin n → γ} {Y' : Fin n → δ}
    (hX : ∀ i j, X i = X j ↔ X' i = X' j) (hY : ∀ i j, Y i = Y j ↔ Y' i = Y' j) (h : Product X Y) : Product X' Y' := by
  intro a b
  by_cases ha : ∃ i, X' i = a
  · by_cases hb : ∃ i, Y' i = b
    · obtain ⟨i, rfl⟩ := ha
      obtain ⟨j, rfl⟩ := hb
      simp only [← hX, ← hY]
      exact h (X i) (Y j)
    · have h1 : IsEmpty {i // Y' i = b} := ⟨fun i => hb ⟨_, i.2⟩⟩
      have h2 : IsEmpty {i // X' i = a ∧ Y' i = b} := ⟨fun i => hb ⟨_, i.2.2⟩⟩
      rw [Nat.card_of_isEmpty, Nat.card_of_isEmpty (α := {i // Y' i = b}), mul_zero, mul_zero]
  · have h1 : IsEmpty {i // X' i = a} := ⟨fun i => ha ⟨_, i.2⟩⟩
    have h2 : IsEmpty {i // X' i = a ∧ Y' i = b} := ⟨fun i => ha ⟨_, i.2.1⟩⟩
    rw [Nat.card_of_isEmpty, Nat.card_of_isEmpty (α := {i // X' i = a}), mul_zero, zero_mul]

/-- C159. The statistic of the kernel test is 0 exactly if the empirical distribution of the pairs is the product of the empirical distributions
of the two samples: the number of rows with the values `a` and `b` times the number of rows is the product of the numbers of rows with the value
`a` and with the value `b`, for all `a` and `b`. The widths of the kernels do not matter for that. -/
theorem c159_kci (cdf : ℝ → ℝ → ℝ → ℝ) (hn : n ≠ 0) {wx wy : ℝ} (hx : 0 < wx) (hy : 0 < wy) (X : Data n d) (Y : Data n e) :
    ((kciTest cdf X Y).2 = 0 ↔ Product X Y) ∧ ((ukciTest cdf wx wy X Y).2 = 0 ↔ Product X Y) := by
  have hs : Product (standardise X) (standardise Y) ↔ Product X Y :=
    ⟨product_inj (standardise_inj X) (standardise_inj Y), product_inj (fun i j => (standardise_inj X i j).symm) fun i j => (standardise_inj Y i j).symm⟩
  have h3 : ∀ wx wy, 0 < wx → 0 < wy → ((ukciTest cdf wx wy X Y).2 = 0 ↔ Product X Y) := by
    intro wx wy hx hy
    rw [ukci_eq, ← hs]
    refine gauss_stat_zero hn (half_pos hx) (half_pos hy) _ _ (fun i j => ?_) fun i j => ?_
    · simp only [gaussianWidth]; congr 1; ring
    · simp only [gaussianWidth]; congr 1; ring
  exact ⟨by rw [← c83_agree]; exact h3 1 1 one_pos one_pos, h3 wx wy hx hy⟩

theorem kernelOf_width {X : Data n d} {K : Matrix (Fin n) (Fin n) ℝ} (h : kernelOf X = some K) :
    ∃ w : ℝ, 0 < w ∧ ∀ i j, K i j = Real.exp (-(w * sqDist X i j)) := by
  rw [kernelOf_eq] at h
  obtain ⟨m, hm, rfl⟩ := Option.map_eq_some_iff.1 h
  exact ⟨m⁻¹, inv_pos.2 (median_pos (fun x hx => (mem_upper.1 hx).1) hm), fun i j => rfl⟩

theorem product_const {α β : Type*} {X : Fin n → α} (Y : Fin n → β) (h : ∀ i j, X i = X j) : Product X Y := by
  intro a b
  by_cases ha : ∃ i, X i = a
  · obtain ⟨i, rfl⟩ := ha
    simp only [h _ i, true_and]
    rw [Nat.card_congr (Equiv.subtypeUnivEquiv fun _ => trivial), Nat.card_fin]
  · have h1 : IsEmpty {i // X i = a} := ⟨fun i => ha ⟨_, i.2⟩⟩
    have h2 : IsEmpty {i // X i = a ∧ Y i = b} := ⟨fun i => ha ⟨_, i.2.1⟩⟩
    rw [Nat.card_of_isEmpty, Nat.card_of_isEmpty (α := {i // X i = a}), mul_zero, zero_mul]

theorem product_comm {α β : Type*} {X : Fin n → α} {Y : Fin n → β} (h : Product X Y) : Product Y X := by
  intro b a
  simp only [and_comm (a := Y _ = b)]
  rw [h a b, mul_comm]

theorem product_equiv {α β : Type*} {k : Nat} (E : Fin k ≃ Fin n) (X : Fin n → α) (Y : Fin n → β) :
    Product (fun i => X (E i)) (fun i => Y (E i)) ↔ Product X Y := by
  have hk : k = n := by
    have := Nat.card_congr E
    rwa [Nat.card_fin, Nat.card_fin] at this
  refine forall_congr' fun a => forall_congr' fun b => ?_
  rw [Nat.card_congr (E.subtypeEquiv (p := fun i => X (E i) = a ∧ Y (E i) = b) (q := fun i => X i = a ∧ Y i = b) fun i => Iff.rfl),
    Nat.card_congr (E.subtypeEquiv (p := fun i => X (E i) = a) (q := fun i => X i = a) fun i => Iff.rfl),
    Nat.card_congr (E.subtypeEquiv (p := fun i => Y (E i) = b) (q := fun i => Y i = b) fun i => Iff.rfl), hk]

theorem hsicStat_product {X : Data n d} {Y : Data n e} {K L : Matrix (Fin n) (Fin n) ℝ} (hn : n ≠ 0) (hX : kernelOf X = some K)
    (hY : kernelOf Y = some L) : hsicStat (center K) (center L) = 0 ↔ Product X Y := by
  obtain ⟨wx, hx, hK⟩ := kernelOf_width hX
  obtain ⟨wy, hy, hL⟩ := kernelOf_width hY
  exact gauss_stat_zero hn hx hy X Y hK hL

theorem kernelOf_rows {X : Data n d} {K : Matrix (Fin n) (Fin n) ℝ} (hX : kernelOf X = some K) : n ≠ 0 := by
  rintro rfl
  rw [kernelOf_none.2 fun i => i.elim0] at hX
  cases hX

/-- C159. The same for the statistic of `HSIC.py`, where it is a number. -/
theorem c159_hsic (ppf : ℝ → ℝ → ℝ → Option ℝ) (alpha : ℝ) (X : Data n d) (Y : Data n e) {s : ℝ} (h : (hsicGam ppf alpha X Y).1 = some s) :
    s = 0 ↔ Product X Y := by
  rw [hsicGam_eq] at h
  cases hX : kernelOf X with
  | none => rw [hX] at h; cases h
  | some K =>
    cases hY : kernelOf Y with
    | none => rw [hX, hY] at h; cases h
    | some L =>
      rw [hX, hY] at h
      have hs := Option.some.inj h
      have hn := kernelOf_rows hX
      have hn' : (n : ℝ) ≠ 0 := by exact_mod_cast hn
      rw [← hs, statOf_eq (psd_symm (center_psd (kernelOf_some hX).1)), div_eq_zero_iff, or_iff_left hn', hsicStat_product hn hX hY]

theorem fastHsicOf_zero (X : Data n d) (Y : Data n e) : fastOf (kernelOf X) (kernelOf Y) = 0 ↔ Product X Y := by
  cases hX : kernelOf X with
  | none => exact iff_of_true rfl (product_const Y (kernelOf_none.1 hX))
  | some K =>
    cases hY : kernelOf Y with
    | none => exact iff_of_true rfl (product_comm (product_const X (kernelOf_none.1 hY)))
    | some L =>
      have hn := kernelOf_rows hX
      have hn' : (n : ℝ) ≠ 0 := by exact_mod_cast hn
      rw [← hsicStat_product hn hX hY]
      have e := statOf_eq (L := center L) (psd_symm (center_psd (kernelOf_some hX).1))
      have : fastOf (some K) (some L) = statOf (center K) (center L) := by
        unfold fastOf statOf
        ring
      rw [this, e, div_eq_zero_iff, or_iff_left hn']

/-- C159. The score of the additive noise model for a direction is 0 exactly if the empirical distribution of the residual and the cause is a
product, at most 2000 rows. (With more rows the same holds of the rows that are kept.) -/
theorem c159_anm (gp : (Fin n → ℝ) → (Fin n → ℝ) → Fin n → ℝ) (x y : Fin n → ℝ) (hn : n ≤ 2000) :
    anmScoreCol gp x y = 0 ↔ Product (fun i => gp x y i - y i) x := by
  unfold anmScoreCol
  rw [normalizedHsic_eq]
  have hr : rows n 2000 = List.finRange n := if_pos hn
  rw [fastHsicOf_zero, hr]
  let E : Fin (List.finRange n).length ≃ Fin n := finCongr List.length_finRange
  have e : ∀ z : Fin n → ℝ, take (List.finRange n) (col z) = fun i => col z (E i) := by
    intro z
    funext i k
    simp only [take, E, finCongr_apply, List.get_eq_getElem, List.getElem_finRange]
  rw [e, e, product_equiv E]
  have hc : ∀ (z : Fin n → ℝ) (i j : Fin n), col z i = col z j ↔ z i = z j := fun z i j =>
    ⟨fun h => congrFun h 0, fun h => funext fun _ => h⟩
  exact ⟨product_inj (hc _) (hc _), product_inj (fun i j => (hc (fun i => gp x y i - y i) i j).symm) fun i j => (hc x i j).symm⟩

/-- C159. With rows that are all different the statistic is 0 only if the other sample is constant: the value 0 is no sign of independence that
data with continuous values could show. -/
theorem c159_distinct (cdf : ℝ → ℝ → ℝ → ℝ) (hn : n ≠ 0) (X : Data n d) (Y : Data n e) (hX : Function.Injective X) :
    (kciTest cdf X Y).2 = 0 ↔ ∀ i j, Y i = Y j := by
  rw [(c159_kci cdf hn one_pos one_pos X Y).1]
  constructor
  · intro h i j
    have h1 := h (X i) (Y i)
    have e1 : Nat.card {k // X k = X i} = 1 := by
      rw [Nat.card_eq_one_iff_unique]
      exact ⟨⟨fun a b => Subtype.ext (hX (a.2.trans b.2.symm))⟩, ⟨⟨i, rfl⟩⟩⟩
    have e2 : Nat.card {k // X k = X i ∧ Y k = Y i} = 1 := by
      rw [Nat.card_eq_one_iff_unique]
      exact ⟨⟨fun a b => Subtype.ext (hX (a.2.1.trans b.2.1.symm))⟩, ⟨⟨i, rfl, rfl⟩⟩⟩
    rw [e1, e2, mul_one, one_mul] at h1
    by_contra hne
    have : Nat.card {k // Y k = Y i} < n := by
      classical
      rw [Nat.card_eq_fintype_card]
      conv_rhs => rw [← Fintype.card_fin n]
      exact Fintype.card_subtype_lt (x := j) fun h => hne h.symm
    omega
  · intro h
    exact product_comm (product_const X h)

/-- C159. The biased statistic of `HSICTestObject.py` with Gaussian kernels, and its distance correlation. -/
theorem c159_vstat (hn : n ≠ 0) {wx wy : ℝ} (hx : 0 < wx) (hy : 0 < wy) (X : Data n d) (Y : Data n e) :
    (HsicTest.vStat (gaussianWidth wx X) (gaussianWidth wy Y) = 0 ↔ Product X Y) ∧
    ∀ r, HsicTest.dCor false (gaussianWidth wx X) (gaussianWidth wy Y) = some r → (r = 0 ↔ Product X Y) := by
  have h : HsicTest.vStat (gaussianWidth wx X) (gaussianWidth wy Y) = 0 ↔ Product X Y := by
    unfold HsicTest.vStat
    rw [centerKernelMatrix_eq (gaussianWidth_symm _ _), centerKernelMatrix_eq (gaussianWidth_symm _ _)]
    refine gauss_stat_zero hn (half_pos hx) (half_pos hy) X Y (fun i j => ?_) fun i j => ?_
    · simp only [gaussianWidth]; congr 1; ring
    · simp only [gaussianWidth]; congr 1; ring
  refine ⟨h, fun r hr => ?_⟩
  simp only [HsicTest.dCor, Bool.false_eq_true, if_false, HsicTest.overRoot, HsicTest.quot] at hr
  split at hr
  · cases hr
  · split at hr
    · cases hr
    · rename_i h0
      obtain rfl := Option.some.inj hr
      rw [div_eq_zero_iff, or_iff_left h0, h]

/-- C159. With linear kernels the statistic is 0 exactly if all columns of the one sample are uncorrelated with all columns of the other. -/
theorem c159_linear (hn : 0 < n) (X : Matrix (Fin n) (Fin d) ℝ) (Y : Matrix (Fin n) (Fin e) ℝ) :
    HsicTest.vStat (X * Xᵀ) (Y * Yᵀ) = 0 ↔ ∀ k l, ∑ i, (X i k - (∑ t, X t k) / n) * (Y i l - (∑ t, Y t l) / n) = 0 := by
  obtain ⟨v, -, h2, -, h4⟩ := HsicTest.c145_features hn X Y
  have hn' : ((n : ℝ) ^ 2) ≠ 0 := by positivity
  rw [← h4]
  change HsicTest.vStat (HsicTest.gram X) (HsicTest.gram Y) = 0 ↔ _
  rw [h2, mul_eq_zero, or_iff_right hn']

/-- The sample -1, 0, 1. -/
def exLine : Matrix (Fin 3) (Fin 1) ℝ := Matrix.of fun i _ => (i : ℝ) - 1

/-- Its squares. -/
def exSquare : Matrix (Fin 3) (Fin 1) ℝ := Matrix.of fun i _ => ((i : ℝ) - 1) ^ 2

/-- C159. The expectation "a statistic of 0 means independence" is false of linear kernels: a function of the other sample can have the statistic 0. -/
theorem c159_linear_false : HsicTest.vStat (exLine * exLineᵀ) (exSquare * exSquareᵀ) = 0 ∧ ¬ Product (fun i => exLine i) fun i => exSquare i := by
  constructor
  · rw [c159_linear (by norm_num)]
    intro k l
    simp [exLine, exSquare, Fin.sum_univ_three]
    norm_num
  · intro h
    have := (c159_distinct (n := 3) (fun _ _ _ => 0) (by norm_num) (fun i => exLine i) (fun i => exSquare i) ?_).1
      ((c159_kci _ (by norm_num) one_pos one_pos _ _).1.2 h) 0 1
    · have := congrFun this 0
      norm_num [exSquare] at this
    · intro i j hij
      have := congrFun hij 0
      simp only [exLine, Matrix.of_apply] at this
      have h2 : (i : ℝ) = j := by linarith
      exact Fin.ext (by exact_mod_cast h2)

section examples

/-- The four pairs of two bits. -/
def exBit1 : Data 4 1 := fun i _ => ((i.val / 2 : Nat) : ℝ)

@[inherit_doc exBit1] def exBit2 : Data 4 1 := fun i _ => ((i.val % 2 : Nat) : ℝ)

theorem ex_product : Product exBit1 exBit2 := by
  have h : Function.Injective fun (k : Nat) => (fun _ => (k : ℝ) : Fin 1 → ℝ) := fun x y h => by
    have : (x : ℝ) = y := congrFun h 0
    exact_mod_cast this
  refine (product_factor (f := fun i : Fin 4 => i.val / 2) (g := fun i : Fin 4 => i.val % 2) h h (fun _ => rfl) fun _ => rfl).2 ?_
  intro a b
  simp only [Nat.card_eq_fintype_card, Fintype.card_subtype]
  by_cases ha : a < 2
  · by_cases hb : b < 2
    · interval_cases a <;> interval_cases b <;> decide
    · rw [Finset.filter_false_of_mem (s := Finset.univ) (p := fun i : Fin 4 => i.val % 2 = b) fun i _ h => by omega,
        Finset.filter_false_of_mem (s := Finset.univ) (p := fun i : Fin 4 => i.val / 2 = a ∧ i.val % 2 = b) fun i _ h => by omega]
      rfl
  · rw [Finset.filter_false_of_mem (s := Finset.univ) (p := fun i : Fin 4 => i.val / 2 = a) fun i _ h => by omega,
      Finset.filter_false_of_mem (s := Finset.univ) (p := fun i : Fin 4 => i.val / 2 = a ∧ i.val % 2 = b) fun i _ h => by omega]
    simp

/-- Two independent bits: the statistic is 0, and so are the others. -/
example (cdf : ℝ → ℝ → ℝ → ℝ) : (kciTest cdf exBit1 exBit2).2 = 0 ∧ (ukciTest cdf 3 (1 / 7) exBit1 exBit2).2 = 0 :=
  ⟨(c159_kci cdf (by norm_num) one_pos one_pos _ _).1.2 ex_product,
    (c159_kci cdf (by norm_num) (wx := 3) (wy := 1 / 7) (by norm_num) (by norm_num) _ _).2.2 ex_product⟩

example : HsicTest.vStat (gaussianWidth 1 exBit1) (gaussianWidth 1 exBit2) = 0 :=
  (c159_vstat (by norm_num) one_pos one_pos _ _).1.2 ex_product

theorem ex_not_product : ¬ Product exBit1 exBit1 := by
  intro h
  have h1 := h (exBit1 0) (exBit1 3)
  have e : IsEmpty {i // exBit1 i = exBit1 0 ∧ exBit1 i = exBit1 3} := ⟨fun i => by
    have := congrFun (i.2.1.symm.trans i.2.2) 0
    norm_num [exBit1] at this⟩
  rw [Nat.card_of_isEmpty, mul_zero, zero_eq_mul, Nat.card_eq_zero, Nat.card_eq_zero] at h1
  rcases h1 with (h1 | h1) | h1 | h1
  · exact h1.false ⟨0, rfl⟩
  · exact h1.not_finite inferInstance
  · exact h1.false ⟨3, rfl⟩
  · exact h1.not_finite inferInstance

/-- A bit and its copy: the statistic is not 0. -/
example (cdf : ℝ → ℝ → ℝ → ℝ) : (kciTest cdf exBit1 exBit1).2 ≠ 0 := fun h =>
  ex_not_product ((c159_kci cdf (by norm_num) one_pos one_pos _ _).1.1 h)

/-- The statistic of `HSIC.py` for the two bits is a number, and 0. -/
example : (hsicGam (fun _ _ _ => none) (1 / 20) exBit1 exBit2).1 = some 0 := by
  obtain ⟨s, hs⟩ : ∃ s, (hsicGam (fun _ _ _ => none) (1 / 20) exBit1 exBit2).1 = some s := by
    rw [hsicGam_eq]
    cases h : kernelOf exBit1 with
    | none =>
      have := congrFun (kernelOf_none.1 h 0 3) 0
      norm_num [exBit1] at this
    | some K =>
      cases h' : kernelOf exBit2 with
      | none =>
        have := congrFun (kernelOf_none.1 h' 0 3) 0
        norm_num [exBit2] at this
      | some L => exact ⟨_, rfl⟩
  rw [hs, (c159_hsic _ _ _ _ hs).2 ex_product]

/-- A regression whose residual is the second bit, for the first bit as the cause. -/
example : anmScoreCol (fun _ y i => 2 * y i) (fun i => exBit2 i 0) (fun i => exBit1 i 0) = 0 :=
  (c159_anm (n := 4) _ _ _ (by norm_num)).2 (product_inj
    (fun i j => ⟨fun h => by have := congrFun h 0; linarith, fun h => funext fun k => by
      have e : k = 0 := Subsingleton.elim _ _
      subst e
      linarith⟩)
    (fun i j => ⟨fun h => congrFun h 0, fun h => funext fun k => by
      have e : k = 0 := Subsingleton.elim _ _
      subst e
      exact h⟩) ex_product)

/-- Three different rows and a sample that is not constant. -/
example (cdf : ℝ → ℝ → ℝ → ℝ) : (kciTest cdf (fun i => exLine i : Data 3 1) (fun i => exSquare i : Data 3 1)).2 ≠ 0 := fun h => by
  have := (c159_kci cdf (by norm_num) one_pos one_pos _ _).1.1 h
  exact c159_linear_false.2 this

end examples

end Cdmir.KTest
