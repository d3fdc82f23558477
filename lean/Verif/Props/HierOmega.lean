import Verif.Props.HierOrder
import Verif.Props.Tetrad
import Mathlib.LinearAlgebra.Matrix.NonsingularInverse
import Mathlib.Algebra.BigOperators.Field
import Mathlib.Tactic.NormNum

/-! C104: the surrogate variable of GIN2.py is uncorrelated with `Z`, if `Z` is smaller than `X`; and how the sets of `FindRoot` compare. -/

set_option linter.unusedSectionVars false

namespace Cdmir.Hier
open BigOperators Matrix

/-- What `np.linalg.svd` promises of its third factor `v`, for a matrix with `b` rows and `a` columns: `v` is orthogonal, and there are `u` and `s` with
`A = u * diag(s) * v`. -/
def IsSvd {a b : Nat} (A : Matrix (Fin b) (Fin a) ℝ) (v : Matrix (Fin a) (Fin a) ℝ) : Prop :=
  v * v.transpose = 1 ∧ ∃ (u : Matrix (Fin b) (Fin b) ℝ) (s : Nat → ℝ),
    A = u * (Matrix.of fun (i : Fin b) (j : Fin a) => if i.val = j.val then s i.val else 0) * v

variable {n p : Nat}

theorem cov_surrogate (data : Fin p → Fin n → ℝ) (X : List (Fin p)) (ω : Fin X.length → ℝ) (y : Fin n → ℝ) :
    Tetrad.cov (surrogate data X ω) y = ∑ j, ω j * Tetrad.cov (data (X.get j)) y := by
  have hm : Tetrad.mean (surrogate data X ω) = ∑ j, ω j * Tetrad.mean (data (X.get j)) := by
    unfold Tetrad.mean surrogate
    rw [Finset.sum_comm, Finset.sum_div]
    refine Finset.sum_congr rfl fun j _ => ?_
    rw [← Finset.mul_sum, mul_div_assoc]
  unfold Tetrad.cov
  rw [hm]
  unfold surrogate
  have : ∀ i, (∑ j, ω j * data (X.get j) i - ∑ j, ω j * Tetrad.mean (data (X.get j))) * (y i - Tetrad.mean y) =
      ∑ j, ω j * ((data (X.get j) i - Tetrad.mean (data (X.get j))) * (y i - Tetrad.mean y)) := by
    intro i
    rw [← Finset.sum_sub_distrib, Finset.sum_mul]
    refine Finset.sum_congr rfl fun j _ => ?_
    ring
  simp only [this]
  rw [Finset.sum_comm, Finset.sum_div]
  refine Finset.sum_congr rfl fun j _ => ?_
  rw [← Finset.mul_sum, mul_div_assoc]

theorem cov_mulVec (data : Fin p → Fin n → ℝ) (X Z : List (Fin p)) (ω : Fin X.length → ℝ) (i : Fin Z.length) :
    Tetrad.cov (surrogate data X ω) (data (Z.get i)) = (crossCov data X Z *ᵥ ω) i := by
  rw [cov_surrogate]
  unfold crossCov Matrix.mulVec dotProduct
  refine Finset.sum_congr rfl fun j _ => ?_
  rw [mul_comm]
  rfl

/-- C104. If `Z` has fewer variables than `X`, then the surrogate variable of `GIN_MI` is uncorrelated with every variable of `Z`. Its weights are never
all zero: their squares add up to one. -/
theorem c104_uncorrelated_partial {svd : {a b : Nat} → Matrix (Fin b) (Fin a) ℝ → Matrix (Fin a) (Fin a) ℝ}
    (data : Fin p → Fin n → ℝ) (X Z : List (Fin p)) (hs : IsSvd (crossCov data X Z) (svd (crossCov data X Z))) (h : Z.length < X.length) :
    ∃ ω, getomega svd data X Z = .ok ω ∧ ∑ j, ω j ^ 2 = 1 ∧
      ∀ z ∈ Z, Tetrad.cov (surrogate data X ω) (data z) = 0 := by
  have hpos : 0 < X.length := by omega
  refine ⟨fun j => svd (crossCov data X Z) ⟨X.length - 1, by omega⟩ j, ?_, ?_, ?_⟩
  · unfold getomega
    rw [dif_pos hpos]
    rfl
  · have h1 := congrFun (congrFun hs.1 ⟨X.length - 1, by omega⟩) ⟨X.length - 1, by omega⟩
    rw [Matrix.mul_apply, Matrix.one_apply_eq] at h1
    rw [← h1]
    refine Finset.sum_congr rfl fun j _ => ?_
    rw [Matrix.transpose_apply, sq]
  · intro z hz
    obtain ⟨i, rfl⟩ := List.mem_iff_get.1 hz
    rw [cov_mulVec]
    obtain ⟨hv, u, s, hA⟩ := hs
    have hω : (svd (crossCov data X Z)) *ᵥ (fun j => svd (crossCov data X Z) ⟨X.length - 1, by omega⟩ j) =
        Pi.single (⟨X.length - 1, by omega⟩ : Fin X.length) 1 := by
      funext k
      have := congrFun (congrFun hv k) ⟨X.length - 1, by omega⟩
      rw [Matrix.mul_apply] at this
      unfold Matrix.mulVec dotProduct
      rw [show (∑ j, svd (crossCov data X Z) k j * svd (crossCov data X Z) ⟨X.length - 1, by omega⟩ j) =
        ∑ j, svd (crossCov data X Z) k j * (svd (crossCov data X Z)).transpose j ⟨X.length - 1, by omega⟩ from rfl, this, Matrix.one_apply,
        Pi.single_apply]
    generalize hw : (fun j => svd (crossCov data X Z) ⟨X.length - 1, by omega⟩ j) = w at hω ⊢
    rw [hA, ← Matrix.mulVec_mulVec, hω, ← Matrix.mulVec_mulVec]
    have : (Matrix.of fun (i : Fin Z.length) (j : Fin X.length) => if i.val = j.val then s i.val else 0) *ᵥ
        Pi.single (⟨X.length - 1, by omega⟩ : Fin X.length) (1 : ℝ) = 0 := by
      funext k
      rw [Matrix.mulVec_single_one]
      simp only [Matrix.col_apply, Matrix.of_apply, Pi.zero_apply]
      rw [if_neg]
      have := k.2
      omega
    rw [this, Matrix.mulVec_zero]
    rfl

variable {V : Type} [DecidableEq V]

theorem flatMap_len (f : List V → Nat) (g : List V → List V) (hg : ∀ k, (g k).length = f k) (K : List (List V)) :
    (K.flatMap g).length = (K.map f).sum := by
  rw [List.length_flatMap]
  congr 1
  exact List.map_congr_left fun k _ => hg k

/-- C104. The sets of `FindRoot`: `X` and `Z` differ in size by the half of the other cluster, by one if the cluster has an odd number of variables,
and each root with an odd number of variables takes one away. -/
theorem c104_sizes (clu o : List V) (K : List (List V)) :
    (setX clu o K).length + (K.map fun k => k.length % 2).sum = (setZ clu K).length + clu.length % 2 + (o.length + 1) / 2 := by
  rw [setX_eq, setZ_eq]
  simp only [List.length_append, List.length_take, List.length_drop]
  rw [flatMap_len (fun k => k.length / 2) (fun k => k.take (k.length / 2)) (fun k => by simp; omega),
    flatMap_len (fun k => k.length / 2 + k.length % 2) (fun k => k.drop (k.length / 2)) (fun k => by simp; omega), List.sum_map_add]
  omega

/-- C104. With clusters of even size `FindRoot` always uses a surrogate that is uncorrelated with `Z`. -/
theorem c104_even_partial {svd : {a b : Nat} → Matrix (Fin b) (Fin a) ℝ → Matrix (Fin a) (Fin a) ℝ}
    (data : Fin p → Fin n → ℝ) (clu o : List (Fin p)) (K : List (List (Fin p)))
    (hs : IsSvd (crossCov data (setX clu o K) (setZ clu K)) (svd (crossCov data (setX clu o K) (setZ clu K)))) (ho : o ≠ []) (hK : ∀ k ∈ K, k.length % 2 = 0) :
    ∃ ω, getomega svd data (setX clu o K) (setZ clu K) = .ok ω ∧
      ∀ z ∈ setZ clu K, Tetrad.cov (surrogate data (setX clu o K) ω) (data z) = 0 := by
  have h := c104_sizes clu o K
  have h0 : (K.map fun k => k.length % 2).sum = 0 := List.sum_eq_zero (by
    intro x hx
    obtain ⟨k, hk, rfl⟩ := List.mem_map.1 hx
    exact hK k hk)
  have h1 := List.length_pos_iff.2 ho
  obtain ⟨ω, h2, _, h3⟩ := c104_uncorrelated_partial data (setX clu o K) (setZ clu K) hs (by omega)
  exact ⟨ω, h2, h3⟩

/-- Four rows of seven variables: `o` is (5, 6), the cluster is (3, 4), the root found before is (0, 1, 2). -/
def gint : Fin 7 → Fin 4 → ℤ :=
  ![![1, -1, -1, 1], ![1, -1, 1, -1], ![1, -1, -1, 1], ![1, 1, -1, -1], ![1, 1, -1, -1], ![1, -1, 1, -1], ![0, 0, 0, 0]]

/-- The same as real numbers. -/
def gdata (i : Fin 7) (r : Fin 4) : ℝ := (gint i r : ℤ)

theorem gsets : setX [3, 4] [5, 6] [[0, 1, 2]] = ([3, 5, 0] : List (Fin 7)) ∧ setZ [3, 4] [[0, 1, 2]] = ([4, 1, 2] : List (Fin 7)) := by decide

theorem gcov : ∀ i j : Fin 3, Tetrad.cov (gdata (([3, 5, 0] : List (Fin 7)).get j)) (gdata (([4, 1, 2] : List (Fin 7)).get i)) =
    if i = j then 4 / 3 else 0 := by
  intro i j
  have hm : ∀ k, Tetrad.mean (gdata k) = 0 := by
    intro k
    unfold Tetrad.mean gdata
    have : ∑ r, gint k r = 0 := by
      revert k
      decide
    rw [← Int.cast_sum, this]
    simp
  have hs : ∑ r, gint (([3, 5, 0] : List (Fin 7)).get j) r * gint (([4, 1, 2] : List (Fin 7)).get i) r = if i = j then 4 else 0 := by
    revert i j
    decide
  unfold Tetrad.cov
  simp only [hm, sub_zero]
  unfold gdata
  simp only [← Int.cast_mul]
  rw [← Int.cast_sum, hs]
  split_ifs <;> norm_num

/-- C104 is false in general: after a root with three variables, `FindRoot` takes a surrogate of three variables against three variables, and it is
correlated with one of them, whatever singular value decomposition is used. -/
theorem c104_false {svd : {a b : Nat} → Matrix (Fin b) (Fin a) ℝ → Matrix (Fin a) (Fin a) ℝ}
    (hs : IsSvd (crossCov gdata (setX [3, 4] [5, 6] [[0, 1, 2]]) (setZ [3, 4] [[0, 1, 2]]))
      (svd (crossCov gdata (setX [3, 4] [5, 6] [[0, 1, 2]]) (setZ [3, 4] [[0, 1, 2]])))) :
    ∃ ω, getomega svd gdata (setX [3, 4] [5, 6] [[0, 1, 2]]) (setZ [3, 4] [[0, 1, 2]]) = .ok ω ∧
      ∃ z ∈ setZ [3, 4] [[0, 1, 2]], Tetrad.cov (surrogate gdata (setX [3, 4] [5, 6] [[0, 1, 2]]) ω) (gdata z) ≠ 0 := by
  rw [gsets.1, gsets.2] at hs ⊢
  refine ⟨fun j => svd (crossCov gdata [3, 5, 0] [4, 1, 2]) ⟨2, by decide⟩ j, ?_, ?_⟩
  · unfold getomega
    rw [dif_pos (by decide)]
    rfl
  · have h1 := congrFun (congrFun hs.1 ⟨2, by decide⟩) ⟨2, by decide⟩
    rw [Matrix.mul_apply, Matrix.one_apply_eq] at h1
    generalize svd (crossCov gdata [3, 5, 0] [4, 1, 2]) = v at h1 ⊢
    by_contra hall
    push Not at hall
    have hz : ∀ i : Fin 3, v ⟨2, by decide⟩ i = 0 := by
      intro i
      have h2 := hall (([4, 1, 2] : List (Fin 7)).get i) (List.get_mem _ _)
      rw [cov_surrogate] at h2
      have h3 : ∑ j : Fin 3, v ⟨2, by decide⟩ j * (if i = j then (4 / 3 : ℝ) else 0) = 0 := by
        refine Eq.trans ?_ h2
        exact Finset.sum_congr rfl fun j _ => congrArg _ (gcov i j).symm
      rw [Finset.sum_eq_single i (fun j _ hj => by rw [if_neg (fun h => hj h.symm), mul_zero]) (by simp), if_pos rfl] at h3
      linarith
    have h4 : (∑ j : Fin 3, v ⟨2, by decide⟩ j * v.transpose j ⟨2, by decide⟩) = 0 := Finset.sum_eq_zero fun j _ => by rw [hz j, zero_mul]
    exact one_ne_zero (h1.symm.trans h4)

/-- The condition of `c104_false` can be met: the matrix is diagonal. -/
example : IsSvd (crossCov gdata (setX [3, 4] [5, 6] [[0, 1, 2]]) (setZ [3, 4] [[0, 1, 2]])) 1 := by
  rw [gsets.1, gsets.2]
  refine ⟨by simp, 1, fun _ => 4 / 3, ?_⟩
  rw [Matrix.one_mul, Matrix.mul_one]
  ext i j
  refine (gcov i j).trans ?_
  rw [Matrix.of_apply]
  exact if_congr Fin.ext_iff rfl rfl

theorem gsvd : IsSvd (crossCov gdata [3, 5, 0] [4, 1]) 1 := by
  refine ⟨by simp, 1, fun _ => 4 / 3, ?_⟩
  rw [Matrix.one_mul, Matrix.mul_one]
  ext i j
  have h : ∀ i : Fin 2, ([4, 1] : List (Fin 7)).get i = ([4, 1, 2] : List (Fin 7)).get (Fin.castLE (by decide) i) := by decide
  have := gcov (Fin.castLE (by decide) i) j
  rw [← h i] at this
  refine this.trans ?_
  rw [Matrix.of_apply]
  exact if_congr Fin.ext_iff rfl rfl

/-- The conditions of `c104_uncorrelated_partial` can be met: `Z` has one variable less. -/
example : IsSvd (crossCov gdata [3, 5, 0] [4, 1]) 1 ∧ ([4, 1] : List (Fin 7)).length < ([3, 5, 0] : List (Fin 7)).length := ⟨gsvd, by decide⟩

/-- The conditions of `c104_even_partial` can be met: the root has two variables. -/
example : IsSvd (crossCov gdata (setX [3, 4] [5, 6] [[0, 1]]) (setZ [3, 4] [[0, 1]])) 1 ∧ (([5, 6] : List (Fin 7)) ≠ []) ∧
    ∀ k ∈ ([[0, 1]] : List (List (Fin 7))), k.length % 2 = 0 := by
  refine ⟨?_, by decide, by decide⟩
  rw [(by decide : setX [3, 4] [5, 6] [[0, 1]] = ([3, 5, 0] : List (Fin 7))), (by decide : setZ [3, 4] [[0, 1]] = ([4, 1] : List (Fin 7)))]
  exact gsvd

end Cdmir.Hier
