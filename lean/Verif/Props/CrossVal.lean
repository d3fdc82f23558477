import Verif.Model.CrossVal
import Verif.Lemmas.Hsic
import Mathlib.Tactic.Linarith
import Mathlib.Tactic.Ring

/-!
Properties C108 (the folds of the cross-validated scores).
-/

namespace Cdmir.CV
open KTest

variable {T d p : ℕ}

theorem mem_rowsIn {a b : ℕ} {r : Fin T} : r ∈ rowsIn T a b ↔ a ≤ r.1 ∧ r.1 < b := by simp [rowsIn]

theorem card_rowsIn {a b : ℕ} (hb : b ≤ T) : (rowsIn T a b).card = b - a := by
  have : (rowsIn T a b).map Fin.valEmbedding = Finset.Ico a b := by
    ext x
    simp only [Finset.mem_map, mem_rowsIn, Fin.valEmbedding_apply, Finset.mem_Ico]
    constructor
    · rintro ⟨r, h, rfl⟩; exact h
    · intro h; exact ⟨⟨x, by omega⟩, h, rfl⟩
  rw [← Finset.card_map Fin.valEmbedding, this, Nat.card_Ico]

theorem mul_le_of_lt {k kk : ℕ} (h : kk < k) : (kk + 1) * (T / k) ≤ T :=
  le_trans (Nat.mul_le_mul_right _ h) (Nat.mul_div_le T k)

theorem fold_last {k : ℕ} : fold T k (k - 1) =
    ⟨rowsIn T ((k - 1) * (T / k)) T, rowsIn T 0 ((k - 1) * (T / k)), T - (k - 1) * (T / k)⟩ := by
  unfold fold
  rw [if_neg (by omega), if_pos rfl]

theorem fold_front {k kk : ℕ} (h : kk < k - 1) : (fold T k kk).te = rowsIn T (kk * (T / k)) ((kk + 1) * (T / k)) ∧
    (fold T k kk).tr = rowsIn T 0 (kk * (T / k)) ∪ rowsIn T ((kk + 1) * (T / k)) T ∧ (fold T k kk).nv = T / k := by
  unfold fold
  by_cases h1 : kk = 0
  · subst h1
    rw [if_neg (by omega), if_neg (by omega), if_pos rfl]
    refine ⟨by simp, ?_, rfl⟩
    ext r
    simp [mem_rowsIn]
  · rw [if_pos (by omega)]
    exact ⟨rfl, rfl, rfl⟩

/-- C108. With at least two folds, and at least as many rows as folds: every row is tested in exactly one fold, every fold
trains on exactly the rows that it does not test, `nv` and `n1` are the numbers of the tested and of the other rows, and
both are positive. -/
theorem c108_partition {k : ℕ} (hk : 2 ≤ k) (hT : k ≤ T) :
    (∀ r : Fin T, ∃! kk, kk < k ∧ r ∈ (fold T k kk).te) ∧
      ∀ kk < k, (∀ r, r ∈ (fold T k kk).tr ↔ r ∉ (fold T k kk).te) ∧ (fold T k kk).te.card = (fold T k kk).nv ∧
        (fold T k kk).tr.card = (fold T k kk).n1 ∧ 0 < (fold T k kk).nv ∧ 0 < (fold T k kk).n1 := by
  have hn : 0 < T / k := Nat.div_pos hT (by omega)
  have hte : ∀ kk < k, ∀ r : Fin T, r ∈ (fold T k kk).te ↔ kk * (T / k) ≤ r.1 ∧ (kk = k - 1 ∨ r.1 < (kk + 1) * (T / k)) := by
    intro kk h r
    have hr := r.2
    by_cases h2 : kk = k - 1
    · rw [h2, fold_last]; simp [mem_rowsIn, hr]
    · rw [(fold_front (by omega)).1]; simp [mem_rowsIn, h2]
  have hall : ∀ m, m < k → (m + 1) * (T / k) ≤ T := fun m hm => mul_le_of_lt hm
  constructor
  · intro r
    have hq : r.1 / (T / k) * (T / k) ≤ r.1 := Nat.div_mul_le_self _ _
    have hq' : r.1 < (r.1 / (T / k) + 1) * (T / k) := by
      have := Nat.lt_div_mul_add (a := r.1) hn
      rw [Nat.add_mul, one_mul]; exact this
    refine ⟨min (r.1 / (T / k)) (k - 1), ⟨by omega, ?_⟩, ?_⟩
    · rw [hte _ (by omega)]
      rcases le_total (r.1 / (T / k)) (k - 1) with h | h
      · rw [min_eq_left h]; exact ⟨hq, Or.inr hq'⟩
      · rw [min_eq_right h]
        exact ⟨le_trans (Nat.mul_le_mul_right _ h) hq, Or.inl rfl⟩
    · rintro kk ⟨hkk, hr⟩
      rw [hte kk hkk] at hr
      have h1 : kk ≤ r.1 / (T / k) := (Nat.le_div_iff_mul_le hn).mpr hr.1
      rcases hr.2 with h2 | h2
      · omega
      · have h3 : r.1 / (T / k) < kk + 1 := (Nat.div_lt_iff_lt_mul hn).mpr h2
        omega
  · intro kk hkk
    by_cases h2 : kk = k - 1
    · subst h2
      have h3 := hall (k - 1) (by omega)
      rw [Nat.add_mul, one_mul] at h3
      have h4 : 0 < (k - 1) * (T / k) := Nat.mul_pos (by omega) hn
      rw [fold_last]
      refine ⟨fun r => ?_, ?_, ?_, ?_, ?_⟩
      · have := r.2
        simp only [mem_rowsIn]; omega
      · exact card_rowsIn le_rfl
      · simp only [Fold.n1]; rw [card_rowsIn (by omega)]; omega
      · simp only; omega
      · simp only [Fold.n1]; omega
    · obtain ⟨a, b, c⟩ := fold_front (T := T) (k := k) (kk := kk) (by omega)
      have h3 := hall kk hkk
      have h5 := hall (kk + 1) (by omega)
      rw [Nat.add_mul (kk + 1), one_mul] at h5
      have h6 : kk * (T / k) ≤ (kk + 1) * (T / k) := Nat.mul_le_mul_right _ (by omega)
      have h7 : (kk + 1) * (T / k) = kk * (T / k) + T / k := by rw [Nat.add_mul, one_mul]
      refine ⟨fun r => ?_, ?_, ?_, ?_, ?_⟩
      · have := r.2
        rw [a, b]
        simp only [Finset.mem_union, mem_rowsIn]; omega
      · rw [a, c, card_rowsIn h3]; omega
      · rw [b, Finset.card_union_of_disjoint, card_rowsIn (by omega), card_rowsIn le_rfl, Fold.n1, c]
        · omega
        · rw [Finset.disjoint_left]
          intro r h h'
          simp only [mem_rowsIn] at h h'
          omega
      · rw [c]; exact hn
      · rw [Fold.n1, c]; omega

/-- Ten rows, three folds: three rows, three rows, four rows. -/
example : ((List.range 3).map fun kk => ((fold 10 3 kk).nv, (fold 10 3 kk).n1)) = [(3, 7), (3, 7), (4, 6)] ∧
    (fold 10 3 1).te = {3, 4, 5} ∧ (fold 10 3 1).tr = {0, 1, 2, 6, 7, 8, 9} := by decide

/-- C108, the rest of the cases: with one fold, or with fewer rows than folds, the last fold tests every row and trains on
none, and the score without parents raises. The default is ten folds, so data of nine rows cannot be scored. -/
theorem c108_few {k : ℕ} (hk : 0 < k) (h : k = 1 ∨ T < k) (K : Matrix (Fin T) (Fin T) ℝ) :
    (∀ r : Fin T, r ∈ (fold T k (k - 1)).te) ∧ (fold T k (k - 1)).tr = ∅ ∧ scoreNone K k = .error .exception := by
  have h0 : (k - 1) * (T / k) = 0 := by
    rcases h with h | h
    · simp [h]
    · rw [Nat.div_eq_of_lt h, mul_zero]
  refine ⟨fun r => ?_, ?_, ?_⟩
  · rw [fold_last, h0]; simp [mem_rowsIn]
  · rw [fold_last, h0]; ext r; simp [mem_rowsIn]
  · unfold scoreNone
    rw [if_pos ⟨k - 1, by omega, by rw [fold_last, h0]; simp [Fold.n1]⟩]

/-- Nine rows and the default of ten folds. -/
example (K : Matrix (Fin 9) (Fin 9) ℝ) : scoreNone K 10 = .error .exception := (c108_few (by omega) (by omega) K).2.2

end Cdmir.CV
