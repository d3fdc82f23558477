import Verif.Model.RandomDag
import Mathlib.Logic.Relation
import Mathlib.Tactic.Ring
import Mathlib.Tactic.Linarith

/-! Property C39: the random graph generator always gives a directed acyclic graph. -/

namespace Cdmir
open BigOperators

section
variable {n : Nat}

theorem randomPermutation_apply (σ : Equiv.Perm (Fin n)) (m : Matrix (Fin n) (Fin n) ℚ) (a b : Fin n) :
    randomPermutation σ m a b = m (σ.symm a) (σ.symm b) := by
  have h1 : ∀ j, ((permMat σ).transpose * m) a j = m (σ.symm a) j := by
    intro j
    rw [Matrix.mul_apply, Finset.sum_eq_single (σ.symm a)]
    · simp [Matrix.transpose, permMat]
    · intro k _ hk
      have : σ k ≠ a := by rintro rfl; simp at hk
      simp [Matrix.transpose, permMat, this]
    · simp
  rw [randomPermutation, Matrix.mul_apply, Finset.sum_eq_single (σ.symm b)]
  · simp [h1, permMat]
  · intro k _ hk
    have : σ k ≠ b := by rintro rfl; simp at hk
    simp [permMat, this]
  · simp

theorem orientation_apply (σ τ : Equiv.Perm (Fin n)) (m : Matrix (Fin n) (Fin n) ℚ) (a b : Fin n) :
    randomAcyclicOrientation σ τ m a b =
      if τ.symm b < τ.symm a then m (σ.symm (τ.symm a)) (σ.symm (τ.symm b)) else 0 := by
  rw [randomAcyclicOrientation, randomPermutation_apply, trilBelow, randomPermutation_apply]

theorem orientation_rank (σ τ : Equiv.Perm (Fin n)) (m : Matrix (Fin n) (Fin n) ℚ) {a b : Fin n}
    (h : randomAcyclicOrientation σ τ m a b ≠ 0) : τ.symm b < τ.symm a := by
  rw [orientation_apply] at h
  by_contra hc; exact h (if_neg hc)

theorem acyclic_of_rank {r : Fin n → Fin n → Prop} (f : Fin n → Fin n) (h : ∀ a b, r a b → f b < f a) (a : Fin n) :
    ¬ Relation.TransGen r a a := by
  have : ∀ x y, Relation.TransGen r x y → f y < f x := by
    intro x y hxy
    induction hxy with
    | single h1 => exact h _ _ h1
    | tail _ h2 ih => exact lt_trans (h _ _ h2) ih
  exact fun hc => lt_irrefl _ (this a a hc)

/-- **C39, orientation.** Whatever matrix is given and whatever orders are drawn, the result has no directed cycle (in
particular no two-cycle and a zero diagonal). For a symmetric matrix it is, up to one renaming `ρ` of the nodes, an orientation
of the given graph: every edge gets exactly one direction and keeps its value, and there are no other edges. -/
theorem c39_orientation (σ τ : Equiv.Perm (Fin n)) (m : Matrix (Fin n) (Fin n) ℚ) :
    (∀ a, ¬ Relation.TransGen (fun a b => randomAcyclicOrientation σ τ m a b ≠ 0) a a) ∧
    ((∀ i j, m i j = m j i) → ∃ ρ : Equiv.Perm (Fin n), ∀ i j, i ≠ j →
      (randomAcyclicOrientation σ τ m (ρ i) (ρ j) = m i j ∧ randomAcyclicOrientation σ τ m (ρ j) (ρ i) = 0) ∨
      (randomAcyclicOrientation σ τ m (ρ i) (ρ j) = 0 ∧ randomAcyclicOrientation σ τ m (ρ j) (ρ i) = m i j)) := by
  refine ⟨acyclic_of_rank (fun x => τ.symm x) (fun a b h => orientation_rank σ τ m h), fun hs => ?_⟩
  refine ⟨σ.trans τ, fun i j hij => ?_⟩
  rw [orientation_apply, orientation_apply]
  simp only [Equiv.trans_apply, Equiv.symm_apply_apply]
  rcases lt_trichotomy (σ i) (σ j) with h | h | h
  · right; rw [if_neg (not_lt.2 h.le), if_pos h, hs j i]; exact ⟨rfl, rfl⟩
  · exact absurd (σ.injective h) hij
  · left; rw [if_pos h, if_neg (not_lt.2 h.le)]; exact ⟨rfl, rfl⟩

/-- **C39, `erdos_renyi`.** For any drawn undirected graph without self-loops, any drawn orders and any drawn numbers the call
returns (given at least one node) a matrix without directed cycle. Its pairs are oriented copies of the drawn edges under one
renaming; entries without weights are 0 or 1, and with weights have the absolute value of the drawn number. With weights the
support is that of the unweighted call exactly when no number drawn for an edge is zero. -/
theorem c39_erdos_renyi (e : Fin n → Fin n → Bool) (hsym : ∀ i j, e i j = e j i) (hirr : ∀ i, e i i = false)
    (hn : 0 < n) (σ τ : Equiv.Perm (Fin n)) :
    ∃ D, erdosRenyi e σ τ none = some D ∧
      (∀ a, ¬ Relation.TransGen (fun a b => D a b ≠ 0) a a) ∧ (∀ a b, D a b = 0 ∨ D a b = 1) ∧
      (∃ ρ : Equiv.Perm (Fin n), ∀ i j, (e i j = true ↔ D (ρ i) (ρ j) = 1 ∨ D (ρ j) (ρ i) = 1)) ∧
      ∀ uni coin, ∃ W, erdosRenyi e σ τ (some (uni, coin)) = some W ∧
        (∀ a, ¬ Relation.TransGen (fun a b => W a b ≠ 0) a a) ∧
        (∀ a b, D a b = 0 → W a b = 0) ∧
        (∀ a b, D a b = 1 → W a b = if coin a b < 1 / 2 then - uni a b else uni a b) ∧
        ((∀ a b, W a b ≠ 0 ↔ D a b ≠ 0) ↔ ∀ a b, D a b = 1 → uni a b ≠ 0) := by
  set D := randomAcyclicOrientation σ τ (nxAdj e) with hD
  have hval : ∀ a b, D a b = 0 ∨ D a b = 1 := by
    intro a b
    rw [hD, orientation_apply, nxAdj]
    split_ifs <;> simp
  have hacy := (c39_orientation σ τ (nxAdj e)).1
  rw [← hD] at hacy
  refine ⟨D, by simp [erdosRenyi, hn, hD], hacy, hval, ?_, fun uni coin => ?_⟩
  · obtain ⟨ρ, hρ⟩ := (c39_orientation σ τ (nxAdj e)).2 (fun i j => by simp [nxAdj, hsym i j])
    rw [← hD] at hρ
    refine ⟨ρ, fun i j => ?_⟩
    by_cases hij : i = j
    · subst hij
      rw [hirr]
      have : D (ρ i) (ρ i) = 0 := by
        rw [hD, orientation_apply, if_neg (lt_irrefl _)]
      simp [this]
    · cases he : e i j <;> rcases hρ i j hij with ⟨p, q⟩ | ⟨p, q⟩ <;> simp [p, q, nxAdj, he]
  · have hw : ∀ a b, adj2weights uni coin D a b =
        if D a b = 0 then 0 else if coin a b < 1 / 2 then - uni a b else uni a b := by
      intro a b
      simp only [adj2weights]
      by_cases h0 : D a b = 0
      · simp [h0]
      · simp [h0]
    refine ⟨adj2weights uni coin D, by simp [erdosRenyi, hn, hD], fun a hc => ?_, fun a b h0 => ?_, fun a b h1 => ?_, ?_⟩
    · refine hacy a (Relation.TransGen.mono (fun x y hxy => ?_) _ _ hc)
      rw [hw] at hxy
      intro h0; exact hxy (if_pos h0)
    · rw [hw, if_pos h0]
    · rw [hw, if_neg (by rw [h1]; norm_num)]
    · constructor
      · intro h a b h1 hu
        have := (h a b).2 (by rw [h1]; norm_num)
        rw [hw, if_neg (by rw [h1]; norm_num), hu] at this
        simp at this
      · intro h a b
        rw [hw]
        rcases hval a b with h0 | h1
        · simp [h0]
        · have := h a b h1
          simp only [h1]
          simp only [one_ne_zero, if_false, ne_eq, not_false_eq_true, iff_true]
          split_ifs
          · simpa using this
          · exact this

end

section examples

/-- The triangle with a pendant node. -/
def exNx : Fin 4 → Fin 4 → Bool := fun i j => i ≠ j && (decide (i.val + j.val < 4) || decide (i.val + j.val = 5))

example := c39_orientation (Equiv.swap 0 1) (Equiv.swap 1 3) (nxAdj exNx)
example := c39_erdos_renyi exNx (by decide) (by decide) (by decide) (Equiv.swap 0 1) (Equiv.swap 1 3)
example : randomAcyclicOrientation (Equiv.swap 0 1) (Equiv.swap 1 3) (nxAdj exNx) 1 2 = 1 ∧
    randomAcyclicOrientation (Equiv.swap 0 1) (Equiv.swap 1 3) (nxAdj exNx) 2 1 = 0 ∧
    randomAcyclicOrientation (Equiv.swap 0 1) (Equiv.swap 1 3) (nxAdj exNx) 3 0 = 1 := by
  decide +kernel

end examples
end Cdmir
