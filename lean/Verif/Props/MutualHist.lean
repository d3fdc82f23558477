import Verif.Model.Mutual
import Mathlib.Analysis.SpecialFunctions.Log.Deriv
import Mathlib.LinearAlgebra.Matrix.PosDef
import Mathlib.Analysis.Matrix.PosDef
import Mathlib.LinearAlgebra.Matrix.SchurComplement
import Mathlib.Algebra.Order.Star.Real

/-! C140 (`mutual_information_2d`) and C141 (Gaussian entropies). -/

namespace Cdmir.Mutual
open BigOperators

section Gibbs
variable {b : Nat} (P : Matrix (Fin b) (Fin b) ℝ)

/-- The two marginal distributions. -/
def colSum (j : Fin b) : ℝ := ∑ i, P i j
def rowSum (i : Fin b) : ℝ := ∑ j, P i j

theorem mi2d_eq : mi2d P false = ∑ i, ∑ j, P i j * (Real.log (P i j) - Real.log (colSum P j) - Real.log (rowSum P i)) := by
  have e1 : ∑ j, colSum P j * Real.log (colSum P j) = ∑ i, ∑ j, P i j * Real.log (colSum P j) := by
    rw [Finset.sum_comm]
    exact Finset.sum_congr rfl fun j _ => by rw [← Finset.sum_mul]; rfl
  have e2 : ∑ i, rowSum P i * Real.log (rowSum P i) = ∑ i, ∑ j, P i j * Real.log (rowSum P i) :=
    Finset.sum_congr rfl fun i _ => by rw [← Finset.sum_mul]; rfl
  show (∑ i, ∑ j, P i j * Real.log (P i j)) - (∑ j, colSum P j * Real.log (colSum P j)) - ∑ i, rowSum P i * Real.log (rowSum P i) = _
  rw [e1, e2, ← Finset.sum_sub_distrib, ← Finset.sum_sub_distrib]
  refine Finset.sum_congr rfl fun i _ => ?_
  rw [← Finset.sum_sub_distrib, ← Finset.sum_sub_distrib]
  exact Finset.sum_congr rfl fun j _ => by ring

variable {P} (hP : ∀ i j, 0 < P i j) (hs : ∑ i, ∑ j, P i j = 1)
include hP

theorem colSum_pos (i j : Fin b) : P i j ≤ colSum P j := Finset.single_le_sum (f := fun i => P i j) (fun i _ => (hP i j).le) (Finset.mem_univ i)
theorem rowSum_pos (i j : Fin b) : P i j ≤ rowSum P i := Finset.single_le_sum (f := fun j => P i j) (fun j _ => (hP i j).le) (Finset.mem_univ j)

theorem rowSum_lt (hb : 2 ≤ b) (i j : Fin b) : P i j < rowSum P i := by
  obtain ⟨j', hj'⟩ : ∃ j' : Fin b, j' ≠ j := by
    by_cases h : (j : Nat) = 0
    · exact ⟨⟨1, by omega⟩, fun e => by rw [← e] at h; simp at h⟩
    · exact ⟨⟨0, by omega⟩, fun e => h (by rw [← e])⟩
  have : P i j + P i j' ≤ rowSum P i := by
    unfold rowSum
    rw [← Finset.sum_pair (f := fun j => P i j) hj'.symm]
    exact Finset.sum_le_sum_of_subset_of_nonneg (Finset.subset_univ _) fun x _ _ => (hP i x).le
  linarith [hP i j']

include hs

theorem mi2d_ge : 0 ≤ mi2d P false ∧ (mi2d P false = 0 ↔ ∀ i j, P i j = rowSum P i * colSum P j) := by
  have hr : ∑ i, rowSum P i = 1 := hs
  have hc : ∑ j, colSum P j = 1 := by rw [← hs]; exact Finset.sum_comm
  have tot : ∑ i, ∑ j, (P i j - rowSum P i * colSum P j) = 0 := by
    simp only [Finset.sum_sub_distrib, ← Finset.mul_sum, hc, mul_one, hr, hs, sub_self]
  have term : ∀ i j, P i j - rowSum P i * colSum P j ≤ P i j * (Real.log (P i j) - Real.log (colSum P j) - Real.log (rowSum P i)) ∧
      (P i j - rowSum P i * colSum P j = P i j * (Real.log (P i j) - Real.log (colSum P j) - Real.log (rowSum P i)) → P i j = rowSum P i * colSum P j) := by
    intro i j
    have h0 := hP i j
    have h1 : 0 < colSum P j := lt_of_lt_of_le h0 (colSum_pos hP i j)
    have h2 : 0 < rowSum P i := lt_of_lt_of_le h0 (rowSum_pos hP i j)
    set t := rowSum P i * colSum P j / P i j with ht
    have ht0 : 0 < t := by positivity
    have el : Real.log (P i j) - Real.log (colSum P j) - Real.log (rowSum P i) = -Real.log t := by
      rw [ht, Real.log_div (by positivity) h0.ne', Real.log_mul h2.ne' h1.ne']
      ring
    have ep : P i j - rowSum P i * colSum P j = P i j * (1 - t) := by
      rw [ht]; field_simp
    rw [el, ep]
    constructor
    · have := Real.log_le_sub_one_of_pos ht0
      nlinarith
    · intro he
      have h1t := mul_left_cancel₀ h0.ne' he
      have : t = 1 := by
        by_contra hne
        have := Real.log_lt_sub_one_of_pos ht0 hne
        linarith
      rw [ht, div_eq_one_iff_eq h0.ne'] at this
      exact this.symm
  rw [mi2d_eq]
  constructor
  · rw [← tot]
    exact Finset.sum_le_sum fun i _ => Finset.sum_le_sum fun j _ => (term i j).1
  · constructor
    · intro he i j
      rw [← tot] at he
      have h1 := (Finset.sum_eq_sum_iff_of_le fun i _ => Finset.sum_le_sum fun j _ => (term i j).1).1 he.symm i (Finset.mem_univ i)
      have h2 := (Finset.sum_eq_sum_iff_of_le fun j _ => (term i j).1).1 h1 j (Finset.mem_univ j)
      exact (term i j).2 h2
    · intro h
      refine Finset.sum_eq_zero fun i _ => Finset.sum_eq_zero fun j _ => ?_
      have h0 := hP i j
      have h1 : 0 < colSum P j := lt_of_lt_of_le h0 (colSum_pos hP i j)
      have h2 : 0 < rowSum P i := lt_of_lt_of_le h0 (rowSum_pos hP i j)
      rw [h i j, Real.log_mul h2.ne' h1.ne']
      ring

omit hs in
theorem joint_neg (hb : 2 ≤ b) : ∑ i, ∑ j, P i j * Real.log (P i j) < ∑ i, rowSum P i * Real.log (rowSum P i) := by
  have e2 : ∑ i, rowSum P i * Real.log (rowSum P i) = ∑ i, ∑ j, P i j * Real.log (rowSum P i) :=
    Finset.sum_congr rfl fun i _ => by rw [← Finset.sum_mul]; rfl
  rw [e2]
  have key : ∀ i j, P i j * Real.log (P i j) < P i j * Real.log (rowSum P i) := fun i j =>
    mul_lt_mul_of_pos_left (Real.log_lt_log (hP i j) (rowSum_lt hP hb i j)) (hP i j)
  have hne : (Finset.univ : Finset (Fin b)).Nonempty := ⟨⟨0, by omega⟩, Finset.mem_univ _⟩
  exact Finset.sum_lt_sum_of_nonempty hne fun i _ => Finset.sum_lt_sum_of_nonempty hne fun j _ => key i j

end Gibbs

theorem mi2d_transpose {b : Nat} (P : Matrix (Fin b) (Fin b) ℝ) (f : Bool) : mi2d P.transpose f = mi2d P f := by
  have e : ∑ i, ∑ j, P.transpose i j * Real.log (P.transpose i j) = ∑ i, ∑ j, P i j * Real.log (P i j) := Finset.sum_comm
  unfold mi2d
  simp only [e]
  simp only [Matrix.transpose_apply]
  cases f
  · simp only [Bool.false_eq_true, if_false]
    ring
  · simp only [if_true]
    rw [add_comm]

/-! The histogram. -/

theorem foldl_min_le (l : List ℝ) (a : ℝ) : l.foldl min a ≤ a ∧ (∀ x ∈ l, l.foldl min a ≤ x) ∧ (l.foldl min a = a ∨ l.foldl min a ∈ l) := by
  induction l generalizing a with
  | nil => simp
  | cons y l ih =>
    obtain ⟨h1, h2, h3⟩ := ih (min a y)
    simp only [List.foldl_cons]
    refine ⟨le_trans h1 (min_le_left _ _), ?_, ?_⟩
    · intro x hx
      rcases List.mem_cons.1 hx with rfl | hx
      · exact le_trans h1 (min_le_right _ _)
      · exact h2 x hx
    · rcases h3 with h3 | h3
      · rw [h3]
        rcases min_choice a y with h | h
        · exact .inl h
        · exact .inr (by rw [h]; exact List.mem_cons_self)
      · exact .inr (List.mem_cons_of_mem _ h3)

theorem foldl_max_ge (l : List ℝ) (a : ℝ) : a ≤ l.foldl max a ∧ (∀ x ∈ l, x ≤ l.foldl max a) := by
  induction l generalizing a with
  | nil => simp
  | cons y l ih =>
    obtain ⟨h1, h2⟩ := ih (max a y)
    simp only [List.foldl_cons]
    refine ⟨le_trans (le_max_left _ _) h1, ?_⟩
    intro x hx
    rcases List.mem_cons.1 hx with rfl | hx
    · exact le_trans (le_max_right _ _) h1
    · exact h2 x hx

theorem ends_spec (l : List ℝ) : (ends l).1 < (ends l).2 ∧ ∀ x ∈ l, (ends l).1 ≤ x ∧ x ≤ (ends l).2 := by
  cases l with
  | nil => simp [ends]
  | cons a l =>
    obtain ⟨h1, h2, -⟩ := foldl_min_le l a
    obtain ⟨h3, h4⟩ := foldl_max_ge l a
    unfold ends
    simp only
    split
    · rename_i he
      refine ⟨by linarith, fun x hx => ?_⟩
      rcases List.mem_cons.1 hx with rfl | hx
      · constructor <;> linarith
      · constructor <;> linarith [h2 x hx, h4 x hx]
    · rename_i he
      refine ⟨lt_of_le_of_ne (by linarith) he, fun x hx => ?_⟩
      rcases List.mem_cons.1 hx with rfl | hx
      · exact ⟨h1, h3⟩
      · exact ⟨h2 x hx, h4 x hx⟩

theorem countP_le_range (m b : Nat) : (List.range (b + 1)).countP (fun t => t ≤ m) = min (m + 1) (b + 1) := by
  induction b with
  | zero =>
    simp [List.range_succ]
  | succ b ih =>
    rw [List.range_succ, List.countP_append, ih]
    by_cases h : b + 1 ≤ m
    · simp [h]; omega
    · simp [h]; omega

/-- The bin, as a number from 1 to `b`: the floor of the relative position, and `b` at the right end. -/
theorem binOf_eq {b : Nat} (hb : 0 < b) {e : ℝ × ℝ} (he : e.1 < e.2) {x : ℝ} (h1 : e.1 ≤ x) (h2 : x ≤ e.2) :
    binOf b e x = if x = e.2 then b else ⌊(x - e.1) * b / (e.2 - e.1)⌋₊ + 1 := by
  have hb' : (0 : ℝ) < b := by exact_mod_cast hb
  have hd : 0 < e.2 - e.1 := by linarith
  have hz : 0 ≤ (x - e.1) * b / (e.2 - e.1) := div_nonneg (mul_nonneg (by linarith) hb'.le) hd.le
  have hedge : ∀ t : Nat, edge b e t ≤ x ↔ t ≤ ⌊(x - e.1) * b / (e.2 - e.1)⌋₊ := by
    intro t
    rw [Nat.le_floor_iff hz, le_div_iff₀ hd]
    unfold edge
    rw [← le_sub_iff_add_le', div_le_iff₀ hb', mul_comm (e.2 - e.1)]
  unfold binOf
  simp only [hedge, countP_le_range]
  split
  · rename_i hx
    have : ⌊(x - e.1) * b / (e.2 - e.1)⌋₊ = b := by
      rw [hx, mul_comm, mul_div_assoc, div_self hd.ne', mul_one, Nat.floor_natCast]
    rw [this]
    simp
  · rename_i hx
    have hlt : x < e.2 := lt_of_le_of_ne h2 hx
    have : ⌊(x - e.1) * b / (e.2 - e.1)⌋₊ < b := by
      rw [Nat.floor_lt hz, div_lt_iff₀ hd]
      nlinarith
    simp
    omega

theorem binOf_range {b : Nat} (hb : 0 < b) {e : ℝ × ℝ} (he : e.1 < e.2) {x : ℝ} (h1 : e.1 ≤ x) (h2 : x ≤ e.2) :
    1 ≤ binOf b e x ∧ binOf b e x ≤ b := by
  have hb' : (0 : ℝ) < b := by exact_mod_cast hb
  rw [binOf_eq hb he h1 h2]
  split
  · omega
  · rename_i hx
    have hlt : x < e.2 := lt_of_le_of_ne h2 hx
    have : ⌊(x - e.1) * b / (e.2 - e.1)⌋₊ < b := by
      rw [Nat.floor_lt (div_nonneg (mul_nonneg (by linarith) hb'.le) (by linarith)), div_lt_iff₀ (by linarith)]
      nlinarith
    omega

/-- C140: every point is counted once, in the bin whose left edge is not above it and whose right edge is above it (the last bin
contains its right edge). -/
theorem c140_histogram {b : Nat} (hb : 0 < b) (p : List (ℝ × ℝ)) : (∑ i, ∑ j, hist2d b p i j) = p.length ∧
    ∀ e : ℝ × ℝ, e.1 < e.2 → ∀ x, e.1 ≤ x → x ≤ e.2 → ∃ i : Fin b, binOf b e x = i + 1 ∧ edge b e i ≤ x ∧ (x < edge b e (i + 1) ∨ (x = e.2 ∧ (i : Nat) + 1 = b)) := by
  constructor
  · have gen : ∀ l : List (ℝ × ℝ), (∀ q ∈ l, (1 ≤ binOf b (ends (p.map Prod.fst)) q.1 ∧ binOf b (ends (p.map Prod.fst)) q.1 ≤ b) ∧
        (1 ≤ binOf b (ends (p.map Prod.snd)) q.2 ∧ binOf b (ends (p.map Prod.snd)) q.2 ≤ b)) →
        ∑ i : Fin b, ∑ j : Fin b, ((l.countP fun q => binOf b (ends (p.map Prod.fst)) q.1 = i + 1 ∧ binOf b (ends (p.map Prod.snd)) q.2 = j + 1 : ℕ) : ℝ) = l.length := by
      intro l
      induction l with
      | nil => simp
      | cons q l ih =>
        intro h
        obtain ⟨⟨a1, a2⟩, c1, c2⟩ := h q List.mem_cons_self
        simp only [List.countP_cons, Nat.cast_add, Finset.sum_add_distrib]
        rw [ih fun r hr => h r (List.mem_cons_of_mem _ hr), List.length_cons, Nat.cast_succ]
        congr 1
        generalize hA : binOf b (ends (p.map Prod.fst)) q.1 = A at a1 a2
        generalize hC : binOf b (ends (p.map Prod.snd)) q.2 = C at c1 c2
        rw [Finset.sum_eq_single (⟨A - 1, by omega⟩ : Fin b), Finset.sum_eq_single (⟨C - 1, by omega⟩ : Fin b)]
        · rw [if_pos (by simp; omega)]; norm_num
        · intro j _ hj
          rw [if_neg]
          · norm_num
          · intro hh
            simp only [decide_eq_true_eq] at hh
            exact hj (Fin.ext (by simp; omega))
        · simp
        · intro i _ hi
          refine Finset.sum_eq_zero fun j _ => ?_
          rw [if_neg]
          · norm_num
          · intro hh
            simp only [decide_eq_true_eq] at hh
            exact hi (Fin.ext (by simp; omega))
        · simp
    apply gen
    intro q hq
    obtain ⟨h1, h2⟩ := ends_spec (p.map Prod.fst)
    obtain ⟨h3, h4⟩ := ends_spec (p.map Prod.snd)
    have m1 := h2 q.1 (List.mem_map_of_mem hq)
    have m2 := h4 q.2 (List.mem_map_of_mem hq)
    exact ⟨binOf_range hb h1 m1.1 m1.2, binOf_range hb h3 m2.1 m2.2⟩
  · intro e he x h1 h2
    obtain ⟨r1, r2⟩ := binOf_range hb he h1 h2
    have hb' : (0 : ℝ) < b := by exact_mod_cast hb
    have hd : 0 < e.2 - e.1 := by linarith
    have hz : 0 ≤ (x - e.1) * b / (e.2 - e.1) := div_nonneg (mul_nonneg (by linarith) hb'.le) hd.le
    rw [binOf_eq hb he h1 h2] at r1 r2 ⊢
    unfold edge
    by_cases hx : x = e.2
    · rw [if_pos hx]
      refine ⟨⟨b - 1, by omega⟩, by simp; omega, ?_, .inr ⟨hx, by simp; omega⟩⟩
      rw [← le_sub_iff_add_le', div_le_iff₀ hb', hx]
      have : ((b - 1 : ℕ) : ℝ) ≤ b := by exact_mod_cast Nat.sub_le _ _
      nlinarith
    · rw [if_neg hx] at r2 ⊢
      refine ⟨⟨⌊(x - e.1) * b / (e.2 - e.1)⌋₊, by omega⟩, rfl, ?_⟩
      have f1 := Nat.floor_le hz
      have f2 := Nat.lt_floor_add_one ((x - e.1) * b / (e.2 - e.1))
      rw [le_div_iff₀ hd] at f1
      rw [div_lt_iff₀ hd] at f2
      constructor
      · rw [← le_sub_iff_add_le', div_le_iff₀ hb']; linarith
      · left
        rw [← sub_lt_iff_lt_add', lt_div_iff₀ hb']; push_cast; linarith

theorem gaussWeight_nonneg (s : ℝ) (t : ℤ) : 0 ≤ gaussWeight s t := by
  unfold gaussWeight
  simp only
  split
  · exact div_nonneg (Real.exp_pos _).le (Finset.sum_nonneg fun _ _ => (Real.exp_pos _).le)
  · exact le_refl _

theorem smooth1_nonneg {b : Nat} (s : ℝ) (a : Fin b → ℝ) (h : ∀ j, 0 ≤ a j) (i : Fin b) : 0 ≤ smooth1 s a i :=
  Finset.sum_nonneg fun j _ => mul_nonneg (gaussWeight_nonneg _ _) (h j)

theorem smooth_nonneg {b : Nat} (s : ℝ) (a : Matrix (Fin b) (Fin b) ℝ) (h : ∀ i j, 0 ≤ a i j) (i j : Fin b) : 0 ≤ smooth s a i j := by
  unfold smooth
  by_cases hs : s > 1 / 10 ^ 15
  · rw [if_pos hs]
    exact smooth1_nonneg s _ (fun j' => smooth1_nonneg s _ (fun i' => h i' j') i) j
  · rw [if_neg hs]
    exact h i j

theorem joint_spec {b : Nat} (hb : 0 < b) (s : ℝ) (p : List (ℝ × ℝ)) :
    (∀ i j, 0 < joint (b := b) s p i j) ∧ ∑ i, ∑ j, joint (b := b) s p i j = 1 := by
  have hpos : ∀ i j, 0 < smooth s (hist2d b p) i j + EPS := fun i j => by
    have : 0 < EPS := by unfold EPS; positivity
    linarith [smooth_nonneg s (hist2d b p) (fun i j => by unfold hist2d; positivity) i j]
  have hne : (Finset.univ : Finset (Fin b)).Nonempty := ⟨⟨0, hb⟩, Finset.mem_univ _⟩
  have ht : 0 < ∑ i, ∑ j, (smooth s (hist2d b p) i j + EPS) := Finset.sum_pos (fun i _ => Finset.sum_pos (fun j _ => hpos i j) hne) hne
  refine ⟨fun i j => div_pos (hpos i j) ht, ?_⟩
  unfold joint
  simp only [Matrix.of_apply, ← Finset.sum_div]
  exact div_self ht.ne'

/-- C140: the value is not negative, zero exactly if the smoothed histogram is the product of its marginals, and below the entropy of
each marginal; the normalised value is that divided by the joint entropy, and lies in `[0, 1)`. For every sample and every width. -/
theorem c140_range (p : List (ℝ × ℝ)) (s : ℝ) :
    0 ≤ mutualInformation2d p s false ∧
    (mutualInformation2d p s false = 0 ↔ ∀ i j, joint (b := 256) s p i j = (∑ j', joint (b := 256) s p i j') * ∑ i', joint (b := 256) s p i' j) ∧
    mutualInformation2d p s false < -∑ j, (∑ i, joint (b := 256) s p i j) * Real.log (∑ i, joint (b := 256) s p i j) ∧
    mutualInformation2d p s true = mutualInformation2d p s false / -∑ i, ∑ j, joint (b := 256) s p i j * Real.log (joint (b := 256) s p i j) ∧
    0 ≤ mutualInformation2d p s true ∧ mutualInformation2d p s true < 1 := by
  obtain ⟨hP, hs⟩ := joint_spec (b := 256) (by norm_num) s p
  unfold mutualInformation2d
  generalize joint (b := 256) s p = P at hP hs
  obtain ⟨g0, g1⟩ := mi2d_ge hP hs
  have hr := joint_neg hP (by norm_num)
  have hc := joint_neg (P := P.transpose) (fun i j => hP j i) (by norm_num)
  rw [show (∑ i, ∑ j, P.transpose i j * Real.log (P.transpose i j)) = ∑ i, ∑ j, P i j * Real.log (P i j) from Finset.sum_comm] at hc
  have ed : mi2d P false = (∑ i, ∑ j, P i j * Real.log (P i j)) - (∑ j, colSum P j * Real.log (colSum P j)) - ∑ i, rowSum P i * Real.log (rowSum P i) := rfl
  have hc' : (∑ i, ∑ j, P i j * Real.log (P i j)) < ∑ j, colSum P j * Real.log (colSum P j) := hc
  set A := ∑ i, ∑ j, P i j * Real.log (P i j)
  set A1 := ∑ j, colSum P j * Real.log (colSum P j)
  set A2 := ∑ i, rowSum P i * Real.log (rowSum P i)
  have en : mi2d P true = (A1 + A2) / A - 1 := rfl
  have hA1 : mi2d P false < -A1 := by rw [ed]; linarith
  have hA : A < 0 := by linarith
  have en' : mi2d P true = mi2d P false / -A := by
    have hAn := hA.ne
    rw [en, ed]
    field_simp
    ring
  refine ⟨g0, g1, hA1, en', ?_, ?_⟩
  · rw [en']; exact div_nonneg g0 (by linarith)
  · rw [en', div_lt_one (by linarith)]; linarith

theorem hist_swap {b : Nat} (p : List (ℝ × ℝ)) : hist2d b (p.map Prod.swap) = (hist2d b p).transpose := by
  funext i j
  rw [Matrix.transpose_apply]
  have e1 : (p.map Prod.swap).map Prod.fst = p.map Prod.snd := by rw [List.map_map]; rfl
  have e2 : (p.map Prod.swap).map Prod.snd = p.map Prod.fst := by rw [List.map_map]; rfl
  unfold hist2d
  rw [e1, e2, List.countP_map]
  congr 2
  funext q
  simp only [Function.comp, Prod.fst_swap, Prod.snd_swap]
  rw [decide_eq_decide]
  exact and_comm

theorem smooth_transpose {b : Nat} (s : ℝ) (a : Matrix (Fin b) (Fin b) ℝ) : smooth s a.transpose = (smooth s a).transpose := by
  unfold smooth
  split
  · funext i j
    simp only [Matrix.transpose_apply, Matrix.of_apply]
    unfold smooth1
    simp only [Finset.mul_sum]
    rw [Finset.sum_comm]
    exact Finset.sum_congr rfl fun _ _ => Finset.sum_congr rfl fun _ _ => by ring
  · rfl

/-- C140: symmetric in the two variables. -/
theorem c140_symm (p : List (ℝ × ℝ)) (s : ℝ) (f : Bool) : mutualInformation2d (p.map Prod.swap) s f = mutualInformation2d p s f := by
  unfold mutualInformation2d
  have : joint (b := 256) s (p.map Prod.swap) = (joint (b := 256) s p).transpose := by
    funext i j
    rw [Matrix.transpose_apply]
    unfold joint
    rw [hist_swap, smooth_transpose]
    simp only [Matrix.transpose_apply, Matrix.of_apply]
    rw [Finset.sum_comm]
  rw [this, mi2d_transpose]

theorem foldl_min_affine {a : ℝ} (ha : 0 < a) (c : ℝ) (l : List ℝ) (x : ℝ) :
    (l.map fun y => a * y + c).foldl min (a * x + c) = a * l.foldl min x + c := by
  induction l generalizing x with
  | nil => rfl
  | cons y l ih =>
    simp only [List.map_cons, List.foldl_cons]
    rw [← ih, mul_min_of_nonneg _ _ ha.le, ← min_add_add_right]

theorem foldl_max_affine {a : ℝ} (ha : 0 < a) (c : ℝ) (l : List ℝ) (x : ℝ) :
    (l.map fun y => a * y + c).foldl max (a * x + c) = a * l.foldl max x + c := by
  induction l generalizing x with
  | nil => rfl
  | cons y l ih =>
    simp only [List.map_cons, List.foldl_cons]
    rw [← ih, mul_max_of_nonneg _ _ ha.le, ← max_add_add_right]

theorem binOf_affine (b : Nat) {a : ℝ} (ha : 0 < a) (c : ℝ) (e : ℝ × ℝ) (x : ℝ) :
    binOf b (a * e.1 + c, a * e.2 + c) (a * x + c) = binOf b e x := by
  have h1 : ∀ t : Nat, edge b (a * e.1 + c, a * e.2 + c) t = a * edge b e t + c := fun t => by unfold edge; ring
  have h2 : ∀ y : ℝ, (a * y + c ≤ a * x + c) ↔ y ≤ x := fun y => by
    rw [add_le_add_iff_right, mul_le_mul_iff_right₀ ha]
  have h3 : (a * x + c = a * e.2 + c) ↔ x = e.2 := by
    rw [add_left_inj, mul_right_inj' ha.ne']
  unfold binOf
  simp only [h1, h2, h3]

/-- The bins of a sample do not depend on its unit. -/
theorem bin_sample (b : Nat) {a : ℝ} (ha : 0 < a) (c : ℝ) (l : List ℝ) {x : ℝ} (hx : x ∈ l) :
    binOf b (ends (l.map fun y => a * y + c)) (a * x + c) = binOf b (ends l) x := by
  cases l with
  | nil => simp at hx
  | cons y l =>
    unfold ends
    simp only [List.map_cons, foldl_min_affine ha, foldl_max_affine ha]
    by_cases he : l.foldl min y = l.foldl max y
    · rw [if_pos (by rw [he]), if_pos he]
      have hv : x = l.foldl min y := by
        obtain ⟨h1, h2, -⟩ := foldl_min_le l y
        obtain ⟨h3, h4⟩ := foldl_max_ge l y
        rcases List.mem_cons.1 hx with rfl | hx
        · exact le_antisymm (by rw [he]; exact h3) h1
        · exact le_antisymm (by rw [he]; exact h4 x hx) (h2 x hx)
      rw [← he, ← hv]
      have := binOf_affine b one_pos (a * x + c - x) (x - 1 / 2, x + 1 / 2) x
      rw [← this]
      congr 1
      · ext
        · simp
        · simp; ring
      · ring
    · rw [if_neg (by rw [add_left_inj, mul_right_inj' ha.ne']; exact he), if_neg he]
      exact binOf_affine b ha c (l.foldl min y, l.foldl max y) x

/-- C140: the units of the two variables do not matter. -/
theorem c140_affine {a a' : ℝ} (ha : 0 < a) (ha' : 0 < a') (c c' : ℝ) (p : List (ℝ × ℝ)) (s : ℝ) (f : Bool) :
    mutualInformation2d (p.map fun q => (a * q.1 + c, a' * q.2 + c')) s f = mutualInformation2d p s f := by
  have hh : hist2d 256 (p.map fun q => (a * q.1 + c, a' * q.2 + c')) = hist2d 256 p := by
    funext i j
    unfold hist2d
    rw [List.countP_map]
    congr 1
    apply List.countP_congr
    intro q hq
    have e1 : (p.map fun q => (a * q.1 + c, a' * q.2 + c')).map Prod.fst = (p.map Prod.fst).map fun y => a * y + c := by
      rw [List.map_map, List.map_map]; rfl
    have e2 : (p.map fun q => (a * q.1 + c, a' * q.2 + c')).map Prod.snd = (p.map Prod.snd).map fun y => a' * y + c' := by
      rw [List.map_map, List.map_map]; rfl
    simp only [Function.comp, e1, e2]
    rw [bin_sample 256 ha c _ (List.mem_map_of_mem hq), bin_sample 256 ha' c' _ (List.mem_map_of_mem hq)]
  unfold mutualInformation2d joint
  rw [hh]

/-- Two points: they fall into the first and the last bin. -/
example : binOf 256 (ends [0, 1]) 0 = 1 ∧ binOf 256 (ends [0, 1]) 1 = 256 := by
  have e : ends [0, 1] = (0, 1) := by simp [ends]
  rw [e, binOf_eq (by norm_num) (by norm_num) (by norm_num) (by norm_num), binOf_eq (by norm_num) (by norm_num) (by norm_num) (by norm_num)]
  norm_num

/-! C141. -/

variable {ι κ : Type} [Fintype ι] [DecidableEq ι] [Fintype κ] [DecidableEq κ]

/-- C141: a number and the matrix with that number as its entry have the same entropy. -/
theorem c141_scalar (c : ℝ) : entropyGaussian !![c] = entropyGaussian1 c := by
  unfold entropyGaussian entropyGaussian1
  rw [Matrix.det_fin_one]
  simp

/-- C141: independent blocks add. -/
theorem c141_blocks (A : Matrix ι ι ℝ) (D : Matrix κ κ ℝ) (hA : A.det ≠ 0) (hD : D.det ≠ 0) :
    entropyGaussian (Matrix.fromBlocks A 0 0 D) = entropyGaussian A + entropyGaussian D := by
  unfold entropyGaussian
  rw [Matrix.det_fromBlocks_zero₂₁, abs_mul, Real.log_mul (abs_ne_zero.2 hA) (abs_ne_zero.2 hD), Fintype.card_sum]
  push_cast
  ring

/-- C141: a linear change of the variables adds the logarithm of its determinant. -/
theorem c141_linear (A C : Matrix ι ι ℝ) (hA : A.det ≠ 0) (hC : C.det ≠ 0) :
    entropyGaussian (A * C * A.transpose) = entropyGaussian C + Real.log |A.det| := by
  unfold entropyGaussian
  rw [Matrix.det_mul, Matrix.det_mul, Matrix.det_transpose, abs_mul, abs_mul,
    Real.log_mul (mul_ne_zero (abs_ne_zero.2 hA) (abs_ne_zero.2 hC)) (abs_ne_zero.2 hA), Real.log_mul (abs_ne_zero.2 hA) (abs_ne_zero.2 hC)]
  ring

/-- C141: what two Gaussian variables with correlation `ρ` have in common. -/
theorem c141_pair {a b ρ : ℝ} (ha : 0 < a) (hb : 0 < b) (hρ : ρ ^ 2 < 1) :
    entropyGaussian1 a + entropyGaussian1 b - entropyGaussian !![a, ρ * Real.sqrt (a * b); ρ * Real.sqrt (a * b), b] =
      -(1 / 2) * Real.log (1 - ρ ^ 2) ∧ 0 ≤ -(1 / 2) * Real.log (1 - ρ ^ 2) := by
  constructor
  · unfold entropyGaussian entropyGaussian1
    rw [Matrix.det_fin_two_of]
    have : a * b - ρ * Real.sqrt (a * b) * (ρ * Real.sqrt (a * b)) = a * b * (1 - ρ ^ 2) := by
      have := Real.mul_self_sqrt (by positivity : 0 ≤ a * b)
      linear_combination (-ρ ^ 2) * this
    have hp : 0 < 1 - ρ ^ 2 := by linarith
    rw [this, abs_of_pos (by positivity), Real.log_mul (by positivity) hp.ne', Real.log_mul ha.ne' hb.ne', Fintype.card_fin]
    push_cast
    ring
  · have := Real.log_nonpos (by linarith : 0 ≤ 1 - ρ ^ 2) (by nlinarith [sq_nonneg ρ])
    linarith

/-- C141: the variables together have at most the sum of their entropies, so that the mutual information of Gaussian variables is not
negative. -/
theorem c141_subadditive (C : Matrix ι ι ℝ) (hC : C.PosDef) : entropyGaussian C ≤ ∑ i, entropyGaussian1 (C i i) := by
  have hd : ∀ i, 0 < C i i := fun i => hC.diag_pos
  set s : ι → ℝ := fun i => (Real.sqrt (C i i))⁻¹ with hs
  have hs0 : ∀ i, 0 < s i := fun i => inv_pos.2 (Real.sqrt_pos.2 (hd i))
  have hdet : C.det ≤ ∏ i, C i i := by
    set M := Matrix.diagonal s * C * Matrix.diagonal s with hM
    have hMp : M.PosDef := by
      have hu : IsUnit (Matrix.diagonal s) := by
        rw [Matrix.isUnit_iff_isUnit_det, Matrix.det_diagonal, isUnit_iff_ne_zero]
        exact Finset.prod_ne_zero_iff.2 fun i _ => (hs0 i).ne'
      have := hC.conjTranspose_mul_mul_same (B := Matrix.diagonal s) (by
        exact Matrix.mulVec_injective_of_isUnit hu)
      rwa [Matrix.diagonal_conjTranspose, show star s = s from by funext i; simp] at this
    have htr : M.trace = Fintype.card ι := by
      unfold Matrix.trace
      have : ∀ i, M.diag i = 1 := fun i => by
        rw [Matrix.diag_apply, hM, Matrix.mul_diagonal, Matrix.diagonal_mul, hs]
        have h1 := Real.mul_self_sqrt (hd i).le
        have h2 := (Real.sqrt_pos.2 (hd i)).ne'
        field_simp
        linarith [h1, sq (Real.sqrt (C i i))]
      simp only [this, Finset.sum_const, Finset.card_univ, nsmul_eq_mul, mul_one]
    have hMd : M.det ≤ 1 := by
      have hp := hMp.eigenvalues_pos
      have e1 : M.det = ∏ i, hMp.1.eigenvalues i := by simpa using hMp.1.det_eq_prod_eigenvalues
      have e2 : M.trace = ∑ i, hMp.1.eigenvalues i := by simpa using hMp.1.trace_eq_sum_eigenvalues
      have : Real.log M.det ≤ 0 := by
        rw [e1, Real.log_prod (fun i _ => (hp i).ne')]
        calc ∑ i, Real.log (hMp.1.eigenvalues i) ≤ ∑ i, (hMp.1.eigenvalues i - 1) :=
              Finset.sum_le_sum fun i _ => Real.log_le_sub_one_of_pos (hp i)
          _ = 0 := by rw [Finset.sum_sub_distrib, ← e2, htr]; simp
      by_contra hc
      push Not at hc
      linarith [Real.log_pos hc]
    rw [hM, Matrix.det_mul, Matrix.det_mul, Matrix.det_diagonal] at hMd
    have hss : (∏ i, s i) * (∏ i, s i) * ∏ i, C i i = 1 := by
      rw [← Finset.prod_mul_distrib, ← Finset.prod_mul_distrib]
      refine Finset.prod_eq_one fun i _ => ?_
      have h1 := Real.mul_self_sqrt (hd i).le
      have h2 := (Real.sqrt_pos.2 (hd i)).ne'
      rw [hs]
      field_simp
      linarith [h1, sq (Real.sqrt (C i i))]
    have hq : 0 < ∏ i, C i i := Finset.prod_pos fun i _ => hd i
    nlinarith
  unfold entropyGaussian entropyGaussian1
  rw [abs_of_pos hC.det_pos, Finset.sum_add_distrib]
  have := Real.log_le_log hC.det_pos hdet
  rw [Real.log_prod (fun i _ => (hd i).ne')] at this
  simp only [← Finset.mul_sum]
  simp only [Finset.sum_const, Finset.card_univ, nsmul_eq_mul]
  linarith

/-- C141: the approximation of the entropy does not see the sign, nor the order, and is at most that of a Gaussian variable. -/
theorem c141_approx {n : Nat} (u : Fin n → ℝ) (σ : Equiv.Perm (Fin n)) :
    entropy2 (fun i => -u i) = entropy2 u ∧ entropy2 (fun i => u (σ i)) = entropy2 u ∧ entropy2 u ≤ entropyGaussian1 1 := by
  refine ⟨?_, ?_, ?_⟩
  · unfold entropy2
    simp only [Real.cosh_neg, neg_mul, Finset.sum_neg_distrib, neg_div, even_two.neg_pow]
  · unfold entropy2
    rw [Equiv.sum_comp σ fun i => Real.log (Real.cosh (u i)), Equiv.sum_comp σ fun i => u i * Real.exp (-u i ^ 2 / 2)]
  · unfold entropy2 entropyGaussian1
    rw [Real.log_one]
    have h1 := sq_nonneg ((∑ i, Real.log (Real.cosh (u i))) / n - 0.37457)
    have h2 := sq_nonneg ((∑ i, u i * Real.exp (-u i ^ 2 / 2)) / n)
    nlinarith

/-- A correlated pair. -/
example : entropyGaussian !![(4 : ℝ), 1 / 2 * Real.sqrt (4 * 9); 1 / 2 * Real.sqrt (4 * 9), 9] =
    entropyGaussian1 4 + entropyGaussian1 9 + 1 / 2 * Real.log (3 / 4) := by
  have := (c141_pair (a := 4) (b := 9) (ρ := 1 / 2) (by norm_num) (by norm_num) (by norm_num)).1
  norm_num at this ⊢
  linarith

example : (1 : Matrix (Fin 3) (Fin 3) ℝ).PosDef := Matrix.PosDef.one

end Cdmir.Mutual
