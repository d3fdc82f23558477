import Verif.Model.LinAlg
import Mathlib.Algebra.Order.Star.Real
import Mathlib.Tactic.Ring
import Mathlib.Tactic.NormNum
import Mathlib.Tactic.Linarith

/-! C150: `pdinv` and `eigdec`. -/

namespace Cdmir.LinAlg

noncomputable section

variable {n : Nat}

/-- What numpy promises about the factorisations of `A`: `cholesky` succeeds exactly if the matrix it sees is positive definite, and then returns a matrix with
`L Lᵀ` equal to it; otherwise the singular values are not negative and the three parts of `svd`, the outer ones orthogonal, multiply to `A`. -/
structure Correct (F : Factor n) (A : Mat n) : Prop where
  good : (lowerSym A).PosDef → ∃ L, F.chol A = some L ∧ L * L.transpose = lowerSym A
  bad : ¬ (lowerSym A).PosDef → F.chol A = none ∧ (∀ i, 0 ≤ (F.svd A).2.1 i) ∧ (F.svd A).1 * (F.svd A).1.transpose = 1 ∧
    (F.svd A).2.2 * (F.svd A).2.2.transpose = 1 ∧ (F.svd A).1 * Matrix.diagonal (F.svd A).2.1 * (F.svd A).2.2 = A

theorem lowerSym_symm {A : Mat n} (h : A.IsSymm) : lowerSym A = A := by
  ext i j
  simp only [lowerSym, Matrix.of_apply]
  split
  · rfl
  · exact h.apply i j

theorem lowerSym_isSymm (A : Mat n) : (lowerSym A).IsSymm := by
  ext i j
  simp only [lowerSym, Matrix.of_apply, Matrix.transpose_apply]
  rcases lt_trichotomy i j with h | h | h
  · rw [if_pos h.le, if_neg (not_le.2 h)]
  · rw [h]
  · rw [if_pos h.le, if_neg (not_le.2 h)]

theorem pdinv_good {F : Factor n} {A : Mat n} (hF : Correct F A) (h : (lowerSym A).PosDef) : pdinv F A = some (lowerSym A)⁻¹ := by
  obtain ⟨L, hL, e⟩ := hF.good h
  unfold pdinv
  rw [hL]
  dsimp only
  rw [one_mul, Matrix.transpose_nonsing_inv, Matrix.transpose_transpose, ← Matrix.mul_inv_rev, e]

theorem pdinv_bad {F : Factor n} {A : Mat n} (hF : Correct F A) (h : ¬ (lowerSym A).PosDef) : (IsUnit A.det → pdinv F A = some A⁻¹) ∧ (¬ IsUnit A.det → pdinv F A = none) := by
  obtain ⟨hc, h0, hu, hv, e⟩ := hF.bad h
  unfold pdinv
  rw [hc]
  dsimp only
  generalize (F.svd A).1 = u at *
  generalize (F.svd A).2.1 = s at *
  generalize (F.svd A).2.2 = v at *
  have hu' : u.transpose * u = 1 := mul_eq_one_comm.1 hu
  have hv' : v.transpose * v = 1 := mul_eq_one_comm.1 hv
  have du : IsUnit u.det := Matrix.isUnit_det_of_right_inverse hu
  have dv : IsUnit v.det := Matrix.isUnit_det_of_right_inverse hv
  have hdet : A.det = u.det * (∏ i, s i) * v.det := by rw [← e, Matrix.det_mul, Matrix.det_mul, Matrix.det_diagonal]
  have hiff : IsUnit A.det ↔ ¬ ∃ i, s i = 0 := by
    rw [hdet, IsUnit.mul_iff, IsUnit.mul_iff, isUnit_iff_ne_zero (a := ∏ i, s i), Finset.prod_ne_zero_iff]
    constructor
    · rintro ⟨⟨-, h⟩, -⟩ ⟨i, hi⟩
      exact h i (Finset.mem_univ i) hi
    · intro h
      exact ⟨⟨du, fun i _ hi => h ⟨i, hi⟩⟩, dv⟩
  constructor
  · intro hA
    rw [if_neg (hiff.1 hA)]
    congr 1
    have hs : Matrix.diagonal s * Matrix.diagonal (fun i => 1 / s i) = 1 := by
      rw [Matrix.diagonal_mul_diagonal, ← Matrix.diagonal_one]
      congr 1
      funext i
      exact mul_one_div_cancel fun h => hiff.1 hA ⟨i, h⟩
    symm
    apply Matrix.inv_eq_right_inv
    calc A * (v.transpose * Matrix.diagonal (fun i => 1 / s i) * u.transpose)
        = u * Matrix.diagonal s * (v * v.transpose) * Matrix.diagonal (fun i => 1 / s i) * u.transpose := by
          conv_lhs => rw [← e]
          simp only [Matrix.mul_assoc]
      _ = u * (Matrix.diagonal s * Matrix.diagonal (fun i => 1 / s i)) * u.transpose := by rw [hv]; simp only [Matrix.mul_assoc, Matrix.one_mul]
      _ = 1 := by rw [hs, Matrix.mul_one, hu]
  · intro hA
    rw [if_pos (not_not.1 fun h => hA (hiff.2 h))]

/-- C150: for a symmetric matrix, positive definite or not, `pdinv` returns the inverse, and nothing finite exactly if there is none. -/
theorem c150_pdinv {F : Factor n} {A : Mat n} (hF : Correct F A) (hA : A.IsSymm) : (IsUnit A.det → pdinv F A = some A⁻¹) ∧ (¬ IsUnit A.det → pdinv F A = none) := by
  by_cases h : (lowerSym A).PosDef
  · have e := pdinv_good hF h
    rw [lowerSym_symm hA] at h e
    exact ⟨fun _ => e, fun h' => absurd (isUnit_iff_ne_zero.2 h.det_pos.ne') h'⟩
  · exact pdinv_bad hF h

/-- C150: expected, `pdinv` returns the inverse of every invertible matrix. False: what is above the diagonal is not looked at if the lower triangle is that of a
positive definite matrix, and then the inverse of that one is returned; it is the inverse of `A` only if `A` is symmetric. -/
theorem c150_false {F : Factor n} {A : Mat n} (hF : Correct F A) (hp : (lowerSym A).PosDef) : pdinv F A = some (lowerSym A)⁻¹ ∧
    (IsUnit A.det → (pdinv F A = some A⁻¹ ↔ A.IsSymm)) := by
  have e := pdinv_good hF hp
  refine ⟨e, fun hu => ⟨fun h => ?_, fun h => by rw [e, lowerSym_symm h]⟩⟩
  rw [e] at h
  have h := Option.some.inj h
  have : lowerSym A = A := by
    have e1 := Matrix.nonsing_inv_nonsing_inv A hu
    have e2 := Matrix.nonsing_inv_nonsing_inv _ (isUnit_iff_ne_zero.2 hp.det_pos.ne')
    rw [← e2, h, e1]
  rw [← this]
  exact lowerSym_isSymm A

/-! ### `eigdec` -/

/-- What numpy promises about `argsort`: the positions, each once, in an order that sorts the list. -/
def SortsUp (argsort : List ℝ → List Nat) : Prop :=
  ∀ l, (argsort l).Perm (List.range l.length) ∧ ((argsort l).map fun i => l.getD i 0).Pairwise (· ≤ ·)

theorem map_getD_perm {β : Type} {l : List β} {perm : List Nat} (h : perm.Perm (List.range l.length)) (d : β) : (perm.map fun i => l.getD i d).Perm l := by
  refine (h.map _).trans (List.Perm.of_eq ?_)
  apply List.ext_getElem
  · simp
  · intro i h1 h2
    simp [List.getD_eq_getElem?_getD, List.getElem?_eq_getElem h2]

/-- C150: `eigdec` raises exactly if `N` is zero or above the dimension. Otherwise it returns `N` of the pairs that the eigenvalue routine found, each at most
as often as found, with the values in falling order, and all the pairs left out have values at most as large. So each vector goes with its value: a matrix
is multiplied on the vector by the value if that is so for the pairs found. Below, `t` is what the routine returned. -/
theorem c150_eigdec {eig : Mat n → List (Pair n)} {eigs : Mat n → Nat → List (Pair n)} {argsort : List ℝ → List Nat} (hs : SortsUp argsort) {x : Mat n} {N : Nat} :
    ((N < 1 ∨ n < N) → eigdec eig eigs argsort x N = .error .exception) ∧
    (1 ≤ N → N ≤ n → ∀ t, t = (if (4 : ℝ) / 100 < (N : ℝ) / n then eig x else eigs x N) → N ≤ t.length → ∃ vals vecs,
      eigdec eig eigs argsort x N = .ok (vals, vecs) ∧ vals.length = N ∧ vecs.length = N ∧ vals.Pairwise (· ≥ ·) ∧
      ∃ rest, t.Perm (vals.zip vecs ++ rest) ∧ ∀ p ∈ rest, ∀ v ∈ vals, p.1 ≤ v) := by
  constructor
  · intro h
    unfold eigdec
    rw [if_pos h]
  intro h1 h2 t ht hlen
  unfold eigdec
  rw [if_neg (by omega)]
  dsimp only
  rw [← ht]
  obtain ⟨hp, hsort⟩ := hs (t.map fun p => -p.1)
  rw [List.length_map] at hp
  generalize argsort (t.map fun p => -p.1) = perm at hp hsort
  have hpl : perm.length = t.length := by simpa using hp.length_eq
  -- the values, in the order of `perm`
  have hval : (perm.map fun i => (t.map fun p => -p.1).getD i 0) = perm.map fun i => -(t.getD i (0, 0)).1 := by
    refine List.map_congr_left fun i hi => ?_
    have hi' : i < t.length := List.mem_range.1 (hp.mem_iff.1 hi)
    simp [List.getD_eq_getElem?_getD, List.getElem?_eq_getElem hi']
  rw [hval] at hsort ⊢
  set q : List (Pair n) := perm.map fun i => t.getD i (0, 0) with hq
  have hqp : q.Perm t := map_getD_perm hp _
  have hsorted : q.Pairwise (fun a b => b.1 ≤ a.1) := by
    rw [hq, List.pairwise_map]
    rw [List.pairwise_map] at hsort
    exact hsort.imp fun h => by linarith
  have hvals : (((perm.map fun i => -(t.getD i (0, 0)).1).take N).map fun v => -v) = (q.take N).map Prod.fst := by
    rw [hq, ← List.map_take, ← List.map_take, List.map_map, List.map_map]
    exact List.map_congr_left fun i _ => by simp
  rw [hvals]
  have hql : q.length = t.length := hqp.length_eq
  have hdesc : ((q.take N).map Prod.fst).Pairwise (· ≥ ·) := by
    rw [List.pairwise_map]
    exact (hsorted.sublist (List.take_sublist N q)).imp fun h => h
  have hrest : ∀ p ∈ q.drop N, ∀ v ∈ (q.take N).map Prod.fst, p.1 ≤ v := by
    intro p hp v hv
    obtain ⟨r, hr, rfl⟩ := List.mem_map.1 hv
    rw [← List.take_append_drop N q, List.pairwise_append] at hsorted
    exact hsorted.2.2 r hr p hp
  by_cases hcase : (q.take N).map Prod.fst = (t.take N).map Prod.fst
  · rw [if_pos hcase]
    refine ⟨_, _, rfl, by simp [hql, hlen], by simp [hlen], hdesc, t.drop N, ?_, ?_⟩
    · rw [hcase, List.zip_map', List.map_id', List.take_append_drop]
    · intro p hp v hv
      have e1 : (q.map Prod.fst).Perm (t.map Prod.fst) := hqp.map _
      have e2 : ((q.drop N).map Prod.fst).Perm ((t.drop N).map Prod.fst) := by
        rw [← List.take_append_drop N q, ← List.take_append_drop N t, List.map_append, List.map_append, hcase] at e1
        simpa using (List.perm_append_left_iff _).1 e1
      have : p.1 ∈ (q.drop N).map Prod.fst := e2.mem_iff.2 (List.mem_map.2 ⟨p, hp, rfl⟩)
      obtain ⟨r, hr, er⟩ := List.mem_map.1 this
      rw [← er]
      exact hrest r hr v hv
  · rw [if_neg hcase]
    refine ⟨_, _, rfl, by simp [hql, hlen], by simp [hpl, hlen], hdesc, q.drop N, ?_, hrest⟩
    have : ((perm.take N).map fun i => (t.getD i (0, 0)).2) = (q.take N).map Prod.snd := by
      rw [hq, ← List.map_take, List.map_map]
      rfl
    rw [this, List.zip_map', List.map_id', List.take_append_drop]
    exact hqp.symm

/-- C150: if the pairs found are eigenpairs, those returned are. -/
theorem c150_pairs {eig : Mat n → List (Pair n)} {eigs : Mat n → Nat → List (Pair n)} {argsort : List ℝ → List Nat} (hs : SortsUp argsort) {x : Mat n} {N : Nat}
    (he : ∀ p ∈ eig x, x.mulVec p.2 = p.1 • p.2) (he' : ∀ p ∈ eigs x N, x.mulVec p.2 = p.1 • p.2) (hl : n ≤ (eig x).length) (hl' : N ≤ (eigs x N).length)
    {vals : List ℝ} {vecs : List (Fin n → ℝ)} (h : eigdec eig eigs argsort x N = .ok (vals, vecs)) (i : Nat) (hi : i < vals.length) (hj : i < vecs.length) :
    x.mulVec vecs[i] = vals[i] • vecs[i] := by
  by_cases hN : N < 1 ∨ n < N
  · rw [(c150_eigdec hs).1 hN] at h
    cases h
  push Not at hN
  have hlen : N ≤ (if (4 : ℝ) / 100 < (N : ℝ) / n then eig x else eigs x N).length := by
    split
    · exact hN.2.trans hl
    · exact hl'
  obtain ⟨a, b, e, -, -, -, rest, hp, -⟩ := (c150_eigdec hs).2 hN.1 hN.2 _ rfl hlen
  rw [h] at e
  obtain ⟨rfl, rfl⟩ := Prod.mk.inj (Except.ok.inj e)
  have hm : (vals[i], vecs[i]) ∈ vals.zip vecs := List.mem_iff_getElem.2 ⟨i, by simp [hi, hj], by simp⟩
  have hm : (vals[i], vecs[i]) ∈ (if (4 : ℝ) / 100 < (N : ℝ) / n then eig x else eigs x N) := hp.mem_iff.2 (List.mem_append_left _ hm)
  split at hm
  · exact he _ hm
  · exact he' _ hm

/-! ### Concrete cases -/

/-- A matrix with a positive definite lower triangle that is not symmetric. -/
def tri : Mat 2 := !![1, 5; 0, 1]

theorem tri_lower : lowerSym tri = 1 := by
  ext i j
  fin_cases i <;> fin_cases j <;> simp [lowerSym, tri]

theorem tri_correct : Correct (⟨fun _ => some 1, fun _ => (1, 1, 1)⟩ : Factor 2) tri :=
  ⟨fun _ => ⟨1, rfl, by rw [tri_lower]; simp⟩, fun h => absurd (by rw [tri_lower]; exact Matrix.PosDef.one) h⟩

example : pdinv (⟨fun _ => some 1, fun _ => (1, 1, 1)⟩ : Factor 2) tri = some 1 := by
  rw [(c150_false tri_correct (by rw [tri_lower]; exact Matrix.PosDef.one)).1, tri_lower, inv_one]

/-- An indefinite symmetric matrix. -/
def flip : Mat 2 := Matrix.diagonal ![1, -1]

theorem flip_symm : flip.IsSymm := Matrix.diagonal_transpose _

theorem flip_correct : Correct (⟨fun _ => none, fun _ => (flip, 1, 1)⟩ : Factor 2) flip := by
  refine ⟨fun h => ?_, fun _ => ⟨rfl, fun i => zero_le_one, ?_, by simp, ?_⟩⟩
  · rw [lowerSym_symm flip_symm] at h
    have := h.det_pos
    simp [flip, Matrix.det_diagonal, Fin.prod_univ_two] at this
    linarith
  · dsimp only
    rw [flip_symm.eq]
    ext i j
    fin_cases i <;> fin_cases j <;> simp [flip, Matrix.mul_apply, Matrix.diagonal]
  · ext i j
    fin_cases i <;> fin_cases j <;> simp [flip, Matrix.mul_apply, Matrix.diagonal]

example := c150_pdinv flip_correct flip_symm

/-- `argsort` as promised exists: sort the positions by their values. -/
theorem sortsUp_exists : ∃ argsort, SortsUp argsort := by
  classical
  refine ⟨fun l => (List.range l.length).mergeSort fun i j => decide (l.getD i 0 ≤ l.getD j 0), fun l => ⟨List.mergeSort_perm _ _, ?_⟩⟩
  rw [List.pairwise_map]
  refine (List.pairwise_mergeSort (fun a b c => ?_) (fun a b => ?_) (List.range l.length)).imp fun h => of_decide_eq_true h
  · intro h1 h2
    exact decide_eq_true ((of_decide_eq_true h1).trans (of_decide_eq_true h2))
  · simp only [Bool.or_eq_true, decide_eq_true_eq]
    exact le_total _ _

/-- Two pairs found in rising order; the larger one is returned. -/
example : ∃ argsort, SortsUp argsort ∧ ∃ vecs, eigdec (fun _ => [(1, ![1, 0]), (2, ![0, 1])]) (fun _ _ => []) argsort (Matrix.diagonal ![1, 2] : Mat 2) 1 = .ok ([2], vecs) := by
  obtain ⟨argsort, hs⟩ := sortsUp_exists
  refine ⟨argsort, hs, ?_⟩
  obtain ⟨vals, vecs, e, h1, h2, -, rest, hp, hr⟩ := (c150_eigdec (eig := fun _ => [(1, ![1, 0]), (2, ![0, 1])]) (eigs := fun _ _ => []) hs
    (x := (Matrix.diagonal ![1, 2] : Mat 2)) (N := 1)).2 le_rfl (by norm_num) [(1, ![1, 0]), (2, ![0, 1])] (by norm_num) (by simp)
  obtain ⟨v, rfl⟩ := List.length_eq_one_iff.1 h1
  obtain ⟨w, rfl⟩ := List.length_eq_one_iff.1 h2
  have hm : ((2, ![0, 1]) : Pair 2) ∈ [v].zip [w] ++ rest := hp.mem_iff.1 (by simp)
  have hv : (v, w) ∈ ([(1, ![1, 0]), (2, ![0, 1])] : List (Pair 2)) := hp.mem_iff.2 (by simp)
  have : v = 2 := by
    have h2 : (2 : ℝ) ≤ v := by
      rcases List.mem_append.1 hm with h | h
      · simp at h
        exact h.1.le
      · exact hr _ h v (by simp)
    simp at hv
    rcases hv with h | h
    · rw [h.1] at h2
      norm_num at h2
    · exact h.1
  exact ⟨[w], by rw [e, this]⟩

end

end Cdmir.LinAlg
