import Verif.Lemmas.KernelTest
import Mathlib.Data.List.Perm.Basic
import Mathlib.Algebra.BigOperators.Fin

/-! The kernel with the median width. -/

namespace Cdmir.KTest
open BigOperators

variable {n d e : Nat}

theorem mem_upper {D : Fin n → Fin n → ℝ} {x : ℝ} : x ∈ upper D ↔ 0 < x ∧ ∃ i j, i < j ∧ D i j = x := by
  unfold upper
  rw [List.mem_filter, List.mem_flatMap]
  constructor
  · rintro ⟨⟨i, _, h⟩, hx⟩
    obtain ⟨j, _, h⟩ := List.mem_map.1 h
    have hx' : 0 < x := by simpa using hx
    refine ⟨hx', i, j, ?_⟩
    by_cases hij : i < j
    · rw [if_pos hij] at h
      exact ⟨hij, h⟩
    · rw [if_neg hij] at h
      exact absurd h hx'.ne
  · rintro ⟨hx, i, j, hij, h⟩
    refine ⟨⟨i, List.mem_finRange i, List.mem_map.2 ⟨j, List.mem_finRange j, ?_⟩⟩, by simpa using hx⟩
    rw [if_pos hij, h]

theorem upper_scale {D D' : Fin n → Fin n → ℝ} {c : ℝ} (hc : 0 < c) (h : ∀ i j, D' i j = c * D i j) :
    upper D' = (upper D).map (c * ·) := by
  have h1 : ((List.finRange n).flatMap fun i => (List.finRange n).map fun j => if i < j then D' i j else 0) =
      ((List.finRange n).flatMap fun i => (List.finRange n).map fun j => if i < j then D i j else 0).map (c * ·) := by
    rw [List.map_flatMap]
    congr 1
    funext i
    rw [List.map_map]
    congr 1
    funext j
    by_cases hij : i < j <;> simp [hij, h]
  unfold upper
  rw [h1, List.filter_map]
  congr 2
  funext x
  simp [hc]

theorem median_scale (l : List ℝ) {c : ℝ} (hc : 0 < c) : median (l.map (c * ·)) = (median l).map (c * ·) := by
  unfold median
  have hs : (l.map (c * ·)).insertionSort (· ≤ ·) = (l.insertionSort (· ≤ ·)).map (c * ·) := by
    rw [List.map_insertionSort (r := (· ≤ ·)) (s := (· ≤ ·))]
    intro a _ b _
    exact (mul_le_mul_iff_right₀ hc).symm
  have hg : ∀ (s : List ℝ) k, (s.map (c * ·)).getD k 0 = c * s.getD k 0 := by
    intro s k
    rw [List.getD_eq_getElem?_getD, List.getD_eq_getElem?_getD, List.getElem?_map]
    cases s[k]? <;> simp
  simp only [hs, hg, List.map_eq_nil_iff, List.length_map]
  split
  · rfl
  · split
    · rfl
    · simp only [Option.map_some, Option.some.injEq]
      ring

theorem median_none {l : List ℝ} : median l = none ↔ l = [] := by
  unfold median
  simp only
  split
  · simp_all
  · split <;> simp_all

theorem median_pos {l : List ℝ} (h : ∀ x ∈ l, 0 < x) {m : ℝ} (hm : median l = some m) : 0 < m := by
  have hg : ∀ k, k < l.length → 0 < (l.insertionSort (· ≤ ·)).getD k 0 := by
    intro k hk
    have hk' : k < (l.insertionSort (· ≤ ·)).length := by rwa [List.length_insertionSort]
    rw [List.getD_eq_getElem?_getD, List.getElem?_eq_getElem hk', Option.getD_some]
    exact h _ ((List.mem_insertionSort _).1 (List.getElem_mem hk'))
  unfold median at hm
  simp only at hm
  split at hm
  · cases hm
  · rename_i hl
    have : 0 < l.length := List.length_pos_iff.2 hl
    split at hm
    · cases hm
      exact hg _ (by omega)
    · cases hm
      have h1 := hg (l.length / 2 - 1) (by omega)
      have h2 := hg (l.length / 2) (by omega)
      linarith

theorem median_perm {l l' : List ℝ} (h : l.Perm l') : median l = median l' := by
  have hs : l.insertionSort (· ≤ ·) = l'.insertionSort (· ≤ ·) :=
    List.Perm.eq_of_pairwise (fun a b _ _ h1 h2 => le_antisymm h1 h2) (List.pairwise_insertionSort _ _) (List.pairwise_insertionSort _ _)
      (((List.perm_insertionSort _ l).trans h).trans (List.perm_insertionSort _ l').symm)
  have hn : l = [] ↔ l' = [] := by
    constructor
    · rintro rfl; exact List.nil_perm.1 h
    · rintro rfl; exact List.perm_nil.1 h
  unfold median
  simp only [hs, hn, h.length_eq]

theorem count_map (l : List (Fin n)) (g : Fin n → ℝ) (a : ℝ) : (l.map g).count a = (l.map fun x => if g x = a then 1 else 0).sum := by
  induction l with
  | nil => rfl
  | cons x l ih =>
    rw [List.map_cons, List.count_cons, ih, List.map_cons, List.sum_cons, add_comm]
    simp

theorem count_upper (D : Fin n → Fin n → ℝ) {a : ℝ} (ha : 0 < a) :
    (upper D).count a = ∑ i, ∑ j, if i < j ∧ D i j = a then 1 else 0 := by
  unfold upper
  rw [List.count_filter (by simpa using ha), List.count_flatMap, Fin.sum_univ_def]
  congr 1
  refine List.map_congr_left fun i _ => ?_
  rw [Function.comp, count_map, Fin.sum_univ_def]
  congr 1
  refine List.map_congr_left fun j _ => ?_
  by_cases h : i < j
  · simp [h]
  · simp [h, ha.ne]

theorem count_upper_two (D : Fin n → Fin n → ℝ) (hD : ∀ i j, D i j = D j i) {a : ℝ} (ha : 0 < a) :
    2 * (upper D).count a = ∑ i, ∑ j, if i ≠ j ∧ D i j = a then 1 else 0 := by
  have h2 : (upper D).count a = ∑ i, ∑ j, if j < i ∧ D i j = a then 1 else 0 := by
    rw [count_upper D ha, Finset.sum_comm]
    exact Finset.sum_congr rfl fun i _ => Finset.sum_congr rfl fun j _ => by rw [hD]
  rw [two_mul]
  conv_lhs => lhs; rw [count_upper D ha]
  rw [h2, ← Finset.sum_add_distrib]
  refine Finset.sum_congr rfl fun i _ => ?_
  rw [← Finset.sum_add_distrib]
  refine Finset.sum_congr rfl fun j _ => ?_
  rcases lt_trichotomy i j with h | h | h
  · simp [h, h.ne, not_lt.2 h.le]
  · simp [h]
  · simp [h, h.ne', not_lt.2 h.le]

theorem upper_perm (D : Fin n → Fin n → ℝ) (hD : ∀ i j, D i j = D j i) (σ : Equiv.Perm (Fin n)) :
    (upper fun i j => D (σ i) (σ j)).Perm (upper D) := by
  rw [List.perm_iff_count]
  intro a
  by_cases ha : 0 < a
  · have h1 := count_upper_two D hD ha
    have h2 := count_upper_two (fun i j => D (σ i) (σ j)) (fun i j => hD _ _) ha
    have h3 : (∑ i, ∑ j, if i ≠ j ∧ D (σ i) (σ j) = a then 1 else 0) = ∑ i, ∑ j, if i ≠ j ∧ D i j = a then 1 else 0 := by
      rw [← Equiv.sum_comp σ fun i => ∑ j, if i ≠ j ∧ D i j = a then 1 else 0]
      refine Finset.sum_congr rfl fun i _ => ?_
      rw [← Equiv.sum_comp σ fun j => if σ i ≠ j ∧ D (σ i) j = a then 1 else 0]
      simp
    omega
  · rw [List.count_eq_zero_of_not_mem fun h => ha (mem_upper.1 h).1, List.count_eq_zero_of_not_mem fun h => ha (mem_upper.1 h).1]

/-- The kernel matrix with the median width, if there is one. -/
noncomputable def kernelOf (X : Data n d) : Option (Matrix (Fin n) (Fin n) ℝ) := (width X).map (rbfDot X)

/-- The same in one formula. -/
noncomputable def expMat (X : Data n d) (m : ℝ) : Matrix (Fin n) (Fin n) ℝ := Matrix.of fun i j => Real.exp (-(m⁻¹ * sqDist X i j))

theorem kernelOf_eq (X : Data n d) : kernelOf X = (median (upper (sqDist X))).map (expMat X) := by
  have h0 : gramDist X = sqDist X := by funext i j; exact gramDist_eq X i j
  unfold kernelOf width
  rw [h0, Option.map_map]
  cases hm : median (upper (sqDist X)) with
  | none => rfl
  | some m =>
    have hp := median_pos (fun x hx => (mem_upper.1 hx).1) hm
    simp only [Option.map_some, Function.comp]
    congr 1
    ext i j
    simp only [rbfDot, expMat, Matrix.of_apply]
    rw [h0, Real.sq_sqrt (by positivity)]
    congr 1
    field_simp

theorem kernelOf_scale {X : Data n d} {X' : Data n e} {c : ℝ} (hc : 0 < c) (h : ∀ i j, sqDist X' i j = c * sqDist X i j) :
    kernelOf X' = kernelOf X := by
  rw [kernelOf_eq, kernelOf_eq, upper_scale hc h, median_scale _ hc, Option.map_map]
  congr 1
  funext m
  ext i j
  simp only [Function.comp, expMat, Matrix.of_apply, h]
  congr 2
  field_simp

theorem kernelOf_perm (X : Data n d) (σ : Equiv.Perm (Fin n)) :
    kernelOf (fun i k => X (σ i) k) = (kernelOf X).map fun K => K.submatrix σ σ := by
  rw [kernelOf_eq, kernelOf_eq, Option.map_map]
  have h : sqDist (fun i k => X (σ i) k) = fun i j => sqDist X (σ i) (σ j) := rfl
  rw [h, median_perm (upper_perm (sqDist X) (sqDist_comm X) σ)]
  rfl

theorem kernelOf_none {X : Data n d} : kernelOf X = none ↔ ∀ i j, X i = X j := by
  rw [kernelOf_eq, Option.map_eq_none_iff, median_none, List.eq_nil_iff_forall_not_mem]
  constructor
  · intro h
    have h1 : ∀ i j, i < j → X i = X j := by
      intro i j hij
      by_contra hne
      have hpos : 0 < sqDist X i j := lt_of_le_of_ne (sqDist_nonneg X i j) fun h0 => hne (sqDist_eq_zero.1 h0.symm)
      exact h _ (mem_upper.2 ⟨hpos, i, j, hij, rfl⟩)
    intro i j
    rcases lt_trichotomy i j with h | h | h
    · exact h1 i j h
    · rw [h]
    · exact (h1 j i h).symm
  · intro h x hx
    obtain ⟨hp, i, j, _, rfl⟩ := mem_upper.1 hx
    rw [sqDist_eq_zero.2 (h i j)] at hp
    exact lt_irrefl _ hp

theorem kernelOf_some {X : Data n d} {K : Matrix (Fin n) (Fin n) ℝ} (h : kernelOf X = some K) :
    K.PosSemidef ∧ (∀ i, K i i = 1) ∧ (∀ i j, K i j ≤ 1) ∧ (∃ i j, i ≠ j ∧ K i j < 1) ∧ ∀ i j, K i j = 1 ↔ X i = X j := by
  have hne : ¬ ∀ i j, X i = X j := by
    rw [← kernelOf_none, h]
    simp
  rw [kernelOf_eq] at h
  obtain ⟨m, hm, rfl⟩ := Option.map_eq_some_iff.1 h
  have hp := median_pos (fun x hx => (mem_upper.1 hx).1) hm
  have hp' : 0 < m⁻¹ := inv_pos.2 hp
  simp only [expMat, Matrix.of_apply]
  refine ⟨gauss_psd X hp'.le, fun i => by simp [sqDist_self], fun i j => ?_, ?_, fun i j => ?_⟩
  · rw [Real.exp_le_one_iff]
    have := mul_nonneg hp'.le (sqDist_nonneg X i j)
    linarith
  · push Not at hne
    obtain ⟨i, j, hij⟩ := hne
    refine ⟨i, j, fun he => hij (by rw [he]), ?_⟩
    rw [Real.exp_lt_one_iff]
    have : 0 < sqDist X i j := lt_of_le_of_ne (sqDist_nonneg X i j) fun h0 => hij (sqDist_eq_zero.1 h0.symm)
    have := mul_pos hp' this
    linarith
  · rw [Real.exp_eq_one_iff, ← sqDist_eq_zero, neg_eq_zero, mul_eq_zero]
    simp [hp'.ne']

end Cdmir.KTest
