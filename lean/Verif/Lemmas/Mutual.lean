import Verif.Model.Mutual
import Mathlib.NumberTheory.Harmonic.GammaDeriv

/-! Lemmas about the nearest neighbour entropy of mutual.py. -/

namespace Cdmir.Mutual
open BigOperators

theorem length_sort (l : List ℝ) : (l.insertionSort (· ≤ ·)).length = l.length := List.length_insertionSort _ _

theorem kth_eq {l : List ℝ} {k : Nat} (hk : k < l.length) :
    kth l k = (l.insertionSort (· ≤ ·))[k]'(by rw [length_sort]; exact hk) := by
  unfold kth
  rw [List.getD_eq_getElem?_getD, List.getElem?_eq_getElem (by rw [length_sort]; exact hk), Option.getD_some]

theorem kth_mem {l : List ℝ} {k : Nat} (hk : k < l.length) : kth l k ∈ l := by
  rw [kth_eq hk]
  exact (List.perm_insertionSort (· ≤ ·) l).subset (List.getElem_mem _)

theorem sorted_sort (l : List ℝ) : (l.insertionSort (· ≤ ·)).Pairwise (· ≤ ·) := List.pairwise_insertionSort _ _

theorem sort_mono (l : List ℝ) {a b : Nat} (hb : b < (l.insertionSort (· ≤ ·)).length) (hab : a ≤ b) :
    (l.insertionSort (· ≤ ·))[a]'(by omega) ≤ (l.insertionSort (· ≤ ·))[b] := by
  rcases Nat.lt_or_eq_of_le hab with h | rfl
  · exact List.pairwise_iff_getElem.1 (sorted_sort l) a b (by omega) hb h
  · exact le_refl _

/-- At most `k` entries are below the entry of rank `k`. -/
theorem kth_lt {l : List ℝ} {k : Nat} (hk : k < l.length) : l.countP (fun x => x < kth l k) ≤ k := by
  rw [← (List.perm_insertionSort (· ≤ ·) l).countP_eq]
  have e := List.take_append_drop k (l.insertionSort (· ≤ ·))
  rw [← e, List.countP_append]
  have h0 : (List.drop k (l.insertionSort (· ≤ ·))).countP (fun x => decide (x < kth l k)) = 0 := by
    rw [List.countP_eq_zero]
    intro x hx
    obtain ⟨m, hm, rfl⟩ := List.getElem_of_mem hx
    rw [List.getElem_drop, kth_eq hk]
    simp only [decide_eq_true_eq, not_lt]
    exact sort_mono l _ (by omega)
  rw [h0]
  exact le_trans List.countP_le_length (by simp)

/-- At least `k + 1` entries are not above it. -/
theorem kth_le {l : List ℝ} {k : Nat} (hk : k < l.length) : k + 1 ≤ l.countP (fun x => x ≤ kth l k) := by
  rw [← (List.perm_insertionSort (· ≤ ·) l).countP_eq]
  have hl := length_sort l
  have h : ((l.insertionSort (· ≤ ·)).take (k + 1)).countP (fun x => decide (x ≤ kth l k)) = k + 1 := by
    have : ((l.insertionSort (· ≤ ·)).take (k + 1)).countP (fun x => decide (x ≤ kth l k)) =
        ((l.insertionSort (· ≤ ·)).take (k + 1)).length := by
      rw [List.countP_eq_length]
      intro x hx
      obtain ⟨m, hm, rfl⟩ := List.getElem_of_mem hx
      rw [List.length_take] at hm
      rw [List.getElem_take, kth_eq hk]
      simp only [decide_eq_true_eq]
      exact sort_mono l _ (by omega)
    rw [this, List.length_take]
    omega
  rw [← h]
  exact (List.take_sublist _ _).countP_le

/-- The two counts determine the entry. -/
theorem kth_unique {l : List ℝ} {k : Nat} (hk : k < l.length) {r : ℝ} (h1 : l.countP (fun x => x < r) ≤ k)
    (h2 : k + 1 ≤ l.countP (fun x => x ≤ r)) : r = kth l k := by
  rcases lt_trichotomy r (kth l k) with h | h | h
  · exfalso
    have : l.countP (fun x => x ≤ r) ≤ l.countP (fun x => x < kth l k) :=
      List.countP_mono_left fun x _ hx => by
        simp only [decide_eq_true_eq] at hx ⊢
        linarith
    have := kth_lt hk
    omega
  · exact h
  · exfalso
    have : l.countP (fun x => x ≤ kth l k) ≤ l.countP (fun x => x < r) :=
      List.countP_mono_left fun x _ hx => by
        simp only [decide_eq_true_eq] at hx ⊢
        linarith
    have := kth_le hk
    omega

theorem kth_perm {l l' : List ℝ} (h : l.Perm l') (k : Nat) : kth l k = kth l' k := by
  unfold kth
  rw [List.Perm.eq_of_pairwise (le := (· ≤ ·)) (fun a b _ _ h1 h2 => le_antisymm h1 h2) (sorted_sort l) (sorted_sort l')
    (((List.perm_insertionSort _ l).trans h).trans (List.perm_insertionSort _ l').symm)]

/-- Greater entries, greater ranked entry. -/
theorem kth_mono {ι : Type} (l : List ι) (a b : ι → ℝ) (h : ∀ i ∈ l, a i ≤ b i) {k : Nat} (hk : k < l.length) :
    kth (l.map a) k ≤ kth (l.map b) k := by
  by_contra hc
  push Not at hc
  have h1 := kth_le (l := l.map b) (k := k) (by simpa using hk)
  have h2 := kth_lt (l := l.map a) (k := k) (by simpa using hk)
  have : (l.map b).countP (fun x => x ≤ kth (l.map b) k) ≤ (l.map a).countP (fun x => x < kth (l.map a) k) := by
    rw [List.countP_map, List.countP_map]
    exact List.countP_mono_left fun x hx hxx => by
      simp only [Function.comp, decide_eq_true_eq] at hxx ⊢
      linarith [h x hx]
  omega

theorem kth_smul {c : ℝ} (hc : 0 < c) {l : List ℝ} {k : Nat} (hk : k < l.length) : kth (l.map fun x => c * x) k = c * kth l k := by
  symm
  apply kth_unique (by simpa using hk)
  · rw [List.countP_map]
    refine le_trans (le_of_eq ?_) (kth_lt hk)
    congr 1
    funext x
    simp [Function.comp, mul_lt_mul_iff_right₀ hc]
  · rw [List.countP_map]
    refine le_trans (kth_le hk) (le_of_eq ?_)
    congr 1
    funext x
    simp [Function.comp, mul_le_mul_iff_right₀ hc]

variable {n : Nat}

theorem sqDist_nonneg (X : Var n) (i j : Fin n) : 0 ≤ sqDist X i j := Finset.sum_nonneg fun _ _ => sq_nonneg _

theorem dist_nonneg (X : Var n) (i j : Fin n) : 0 ≤ dist X i j := Real.sqrt_nonneg _

/-- The radius of a row, given the distances. -/
noncomputable def radius (X : Var n) (k : Nat) (i : Fin n) : ℝ := kth ((List.finRange n).map fun j => dist X i j) k

theorem radius_nonneg (X : Var n) {k : Nat} (hk : k < n) (i : Fin n) : 0 ≤ radius X k i := by
  have := kth_mem (l := (List.finRange n).map fun j => dist X i j) (k := k) (by simpa using hk)
  obtain ⟨j, -, hj⟩ := List.mem_map.1 this
  unfold radius
  rw [← hj]
  exact dist_nonneg X i j

theorem eps_pos : 0 < EPS := by unfold EPS; positivity

/-- The value that `entropy` returns. -/
noncomputable def entropyVal (X : Var n) (k : Nat) : ℝ :=
  (X.d : ℝ) * ((∑ i, Real.log (radius X k i + EPS)) / n) + Real.log (volumeUnitBall X.d) + psi n - psi k

theorem entropy_eq (X : Var n) (k : Nat) :
    entropy X k = if X.d = 0 ∨ n < k + 1 then .error .value else .ok (entropyVal X k) := by
  unfold entropy nearestDistances
  split
  · rfl
  · rfl

/-- `psi` at a successor. -/
theorem psi_succ (m : Nat) : psi (m + 1) = -Real.eulerMascheroniConstant + harmonic m := by
  unfold psi
  have h := Real.deriv_Gamma_nat m
  push_cast
  rw [h, Real.Gamma_nat_eq_factorial]
  have : (m.factorial : ℝ) ≠ 0 := by positivity
  field_simp

theorem psi_sub {k n : Nat} (hk : 1 ≤ k) (hkn : k ≤ n) : psi n - psi k = ∑ j ∈ Finset.Ico k n, (1 : ℝ) / j := by
  induction n, hkn using Nat.le_induction with
  | base => simp
  | succ m hm ih =>
    rw [Finset.sum_Ico_succ_top hm, ← ih]
    obtain ⟨a, rfl⟩ : ∃ a, m = a + 1 := ⟨m - 1, by omega⟩
    rw [psi_succ (a + 1), psi_succ a, harmonic_succ]
    push_cast
    ring

theorem sqDist_append (X Y : Var n) (i j : Fin n) : sqDist (X.append Y) i j = sqDist X i j + sqDist Y i j := by
  unfold sqDist Var.append
  simp only [Fin.sum_univ_add, Fin.append_left, Fin.append_right]

theorem sqDist_hstack (l : List (Var n)) (i j : Fin n) : sqDist (hstack l) i j = (l.map fun X => sqDist X i j).sum := by
  induction l with
  | nil => simp [hstack, sqDist]
  | cons X l ih => simp [hstack, sqDist_append, ih]

theorem d_hstack (l : List (Var n)) : (hstack l).d = (l.map Var.d).sum := by
  induction l with
  | nil => rfl
  | cons X l ih => simp [hstack, Var.append, ih]

/-- Entropy sees the number of columns and the distances only. -/
theorem entropy_congr {X Y : Var n} (hd : X.d = Y.d) (h : ∀ i j, sqDist X i j = sqDist Y i j) (k : Nat) : entropy X k = entropy Y k := by
  rw [entropy_eq, entropy_eq, hd]
  congr 1
  unfold entropyVal radius dist
  simp only [hd, h]

end Cdmir.Mutual
