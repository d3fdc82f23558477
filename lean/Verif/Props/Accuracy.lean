import Verif.Model.Accuracy
import Verif.Props.Notears

/-! C61: the accuracy measures of `count_accuracy`. -/

namespace Cdmir
open Spec Accuracy

section
variable {d : Nat}

theorem mem_positions (q : Fin d × Fin d) : q ∈ positions d := by
  unfold positions
  simp

theorem positions_nodup : (positions d).Nodup := by
  unfold positions
  rw [List.nodup_flatMap]
  refine ⟨fun i _ => (List.nodup_finRange d).map fun a b h => (Prod.mk.inj h).2, ?_⟩
  refine (List.nodup_finRange d).pairwise_of_forall_ne fun a _ b _ hab => ?_
  intro q h1 h2
  simp only [List.mem_map, List.mem_finRange, true_and] at h1 h2
  obtain ⟨x, rfl⟩ := h1
  obtain ⟨y, hy⟩ := h2
  exact hab (Prod.mk.inj hy).1.symm

theorem mem_flat {m : Fin d → Fin d → Bool} {q : Fin d × Fin d} : q ∈ flat m ↔ m q.1 q.2 = true := by
  unfold flat
  simp [mem_positions]

/-- The length of a filtered list of positions is a number of positions. -/
theorem length_filter (p : Fin d × Fin d → Bool) : ((positions d).filter p).length = (Finset.univ.filter fun q => p q = true).card := by
  rw [← List.toFinset_card_of_nodup (positions_nodup.filter p)]
  congr 1
  ext q
  simp [mem_positions]

theorem length_flat (m : Fin d → Fin d → Bool) : (flat m).length = (Finset.univ.filter fun q : Fin d × Fin d => m q.1 q.2 = true).card :=
  length_filter _

theorem length_inter (m : Fin d → Fin d → Bool) (b : List (Fin d × Fin d)) :
    (inter (flat m) b).length = (Finset.univ.filter fun q : Fin d × Fin d => m q.1 q.2 = true ∧ q ∈ b).card := by
  unfold inter flat
  rw [List.filter_filter, length_filter]
  congr 1
  ext q
  simp [and_comm]

theorem length_diff (m : Fin d → Fin d → Bool) (b : List (Fin d × Fin d)) :
    (diff (flat m) b).length = (Finset.univ.filter fun q : Fin d × Fin d => m q.1 q.2 = true ∧ q ∉ b).card := by
  unfold diff flat
  rw [List.filter_filter, length_filter]
  congr 1
  ext q
  simp [and_comm]

theorem anyAt_iff {m : Fin d → Fin d → Bool} : anyAt m = true ↔ ∃ i j, m i j = true := by
  unfold anyAt
  simp [List.any_eq_true, mem_positions]

/-- What the checks accept: a 0/1 matrix that passes igraph's test, or a matrix of 0, 1 and at least one -1 without two -1
facing each other. -/
def Accepted (isDag : Mat d → Bool) (est : Mat d) : Prop :=
  ((∀ i j, est i j = 0 ∨ est i j = 1) ∧ isDag est = true) ∨
  ((∃ i j, est i j = -1) ∧ (∀ i j, est i j = 0 ∨ est i j = 1 ∨ est i j = -1) ∧ ∀ i j, ¬(est i j = -1 ∧ est j i = -1))

theorem check_ok {isDag : Mat d → Bool} {est : Mat d} (h : Accepted isDag est) : check isDag est = .ok () := by
  unfold check
  rcases h with ⟨h, hd⟩ | ⟨h1, h2, h3⟩
  · rw [if_neg, if_neg, if_neg (by simp [hd])]
    · rfl
    · simp only [anyAt_iff, decide_eq_true_eq, not_exists]
      exact fun i j => not_not.2 (h i j)
    · simp only [anyAt_iff, decide_eq_true_eq, not_exists]
      intro i j q
      rcases h i j with k | k <;> rw [k] at q <;> exact absurd q (by decide)
  · rw [if_pos, if_neg, if_neg]
    · rfl
    · simpa only [anyAt_iff, decide_eq_true_eq, not_exists] using h3
    · simp only [anyAt_iff, decide_eq_true_eq, not_exists]
      exact fun i j => not_not.2 (h2 i j)
    · simpa only [anyAt_iff, decide_eq_true_eq] using h1

/-- C61: every other matrix is refused with a `ValueError`. -/
theorem c61_refused (isDag : Mat d → Bool) (tru est : Mat d) (h : ¬ Accepted isDag est) :
    countAccuracy isDag tru est = .error .value := by
  have : check isDag est = .error .value := by
    unfold check
    split_ifs with h1 h2 h3 h4 h5
    · rfl
    · rfl
    · refine absurd (.inr ?_) h
      simp only [anyAt_iff, decide_eq_true_eq, not_exists] at h1 h2 h3
      exact ⟨h1, fun i j => not_not.1 (h2 i j), h3⟩
    · rfl
    · refine absurd (.inl ?_) h
      simp only [anyAt_iff, decide_eq_true_eq, not_exists] at h4
      exact ⟨fun i j => not_not.1 (h4 i j), h5⟩
    · rfl
  unfold countAccuracy
  rw [this]
  rfl

open Classical in
/-- The number of ordered pairs with a property. -/
noncomputable def count (P : Fin d → Fin d → Prop) : Nat := (Finset.univ.filter fun q : Fin d × Fin d => P q.1 q.2).card

theorem count_congr {P Q : Fin d → Fin d → Prop} (h : ∀ i j, P i j ↔ Q i j) : count P = count Q := by
  unfold count; congr 1; ext q; simp [h]

theorem count_le {P Q : Fin d → Fin d → Prop} (h : ∀ i j, P i j → Q i j) : count P ≤ count Q := by
  unfold count
  refine Finset.card_le_card fun q => ?_
  simp only [Finset.mem_filter, Finset.mem_univ, true_and]
  exact h _ _

theorem count_add {P Q : Fin d → Fin d → Prop} (h : ∀ i j, P i j → ¬ Q i j) : count P + count Q = count fun i j => P i j ∨ Q i j := by
  classical
  unfold count
  rw [← Finset.card_union_of_disjoint]
  · congr 1; ext q; simp
  · rw [Finset.disjoint_filter]; exact fun q _ => h _ _

theorem count_or_le (P Q : Fin d → Fin d → Prop) : (count fun i j => P i j ∨ Q i j) ≤ count P + count Q := by
  classical
  unfold count
  refine le_trans (Finset.card_le_card fun q => ?_) (Finset.card_union_le _ _)
  simp

open Classical in
theorem count_zero {P : Fin d → Fin d → Prop} : count P = 0 ↔ ∀ i j, ¬ P i j := by
  unfold count
  rw [Finset.card_eq_zero, Finset.filter_eq_empty_iff]
  exact ⟨fun h i j => h (Finset.mem_univ (i, j)), fun h q _ => h q.1 q.2⟩

theorem count_swap (P : Fin d → Fin d → Prop) : count P = count fun i j => P j i := by
  unfold count
  refine Finset.card_bij (fun q _ => (q.2, q.1)) ?_ ?_ ?_
  · simp
  · rintro ⟨a, b⟩ _ ⟨c, e⟩ _ h
    simp only [Prod.mk.injEq] at h ⊢
    exact ⟨h.2, h.1⟩
  · rintro ⟨a, b⟩ h
    exact ⟨(b, a), by simpa using h, rfl⟩

/-- What `count_accuracy` computes on an accepted matrix, as numbers of pairs. -/
theorem count_spec {isDag : Mat d → Bool} {tru est : Mat d} (h : Accepted isDag est) :
    ∃ r, countAccuracy isDag tru est = .ok r ∧
      r.nnz = (count fun i j => est i j = 1) + count (fun i j => est i j = -1) ∧
      r.fdr = (((count fun i j => est i j = 1 ∧ tru i j = 0) + count (fun i j => est i j = -1 ∧ tru i j = 0 ∧ tru j i = 0) : Nat) : Rat) /
        (max r.nnz 1 : Nat) ∧
      r.tpr = (((count fun i j => est i j = 1 ∧ tru i j ≠ 0) + count (fun i j => est i j = -1 ∧ (tru i j ≠ 0 ∨ tru j i ≠ 0)) : Nat) : Rat) /
        (max (count fun i j => tru i j ≠ 0) 1 : Nat) ∧
      r.fpr = (((count fun i j => est i j = 1 ∧ tru i j = 0) + count (fun i j => est i j = -1 ∧ tru i j = 0 ∧ tru j i = 0) : Nat) : Rat) /
        max (1 / 2 * (d : Rat) * (d - 1) - ((count fun i j => tru i j ≠ 0 : Nat) : Rat)) 1 ∧
      r.shd = (count fun i j => j ≤ i ∧ est i j + est j i ≠ 0 ∧ tru i j + tru j i = 0) +
        (count fun i j => j ≤ i ∧ tru i j + tru j i ≠ 0 ∧ est i j + est j i = 0) +
        count (fun i j => est i j = 1 ∧ tru i j = 0 ∧ tru j i ≠ 0) := by
  unfold countAccuracy
  rw [check_ok h]
  have e1 : (flat fun i j => decide (est i j = 1)).length = count fun i j => est i j = 1 := by
    rw [length_flat]; unfold count; congr 1; ext q; simp
  have e2 : (flat fun i j => decide (est i j = -1)).length = count fun i j => est i j = -1 := by
    rw [length_flat]; unfold count; congr 1; ext q; simp
  have e3 : (flat fun i j => decide (tru i j ≠ 0)).length = count fun i j => tru i j ≠ 0 := by
    rw [length_flat]; unfold count; congr 1; ext q; simp
  have e4 : (inter (flat fun i j => decide (est i j = 1)) (flat fun i j => decide (tru i j ≠ 0))).length =
      count fun i j => est i j = 1 ∧ tru i j ≠ 0 := by
    rw [length_inter]; unfold count; congr 1; ext q; simp [mem_flat]
  have e5 : (inter (flat fun i j => decide (est i j = -1))
      ((flat fun i j => decide (tru i j ≠ 0)) ++ flat fun i j => decide (tru j i ≠ 0))).length =
      count fun i j => est i j = -1 ∧ (tru i j ≠ 0 ∨ tru j i ≠ 0) := by
    rw [length_inter]; unfold count; congr 1; ext q; simp [mem_flat]
  have e6 : (diff (flat fun i j => decide (est i j = 1))
      ((flat fun i j => decide (tru i j ≠ 0)) ++ flat fun i j => decide (tru j i ≠ 0))).length =
      count fun i j => est i j = 1 ∧ tru i j = 0 ∧ tru j i = 0 := by
    rw [length_diff]; unfold count; congr 1; ext q; simp [mem_flat]
  have e7 : (diff (flat fun i j => decide (est i j = -1))
      ((flat fun i j => decide (tru i j ≠ 0)) ++ flat fun i j => decide (tru j i ≠ 0))).length =
      count fun i j => est i j = -1 ∧ tru i j = 0 ∧ tru j i = 0 := by
    rw [length_diff]; unfold count; congr 1; ext q; simp [mem_flat]
  have e8 : (inter (diff (flat fun i j => decide (est i j = 1)) (flat fun i j => decide (tru i j ≠ 0)))
      (flat fun i j => decide (tru j i ≠ 0))).length = count fun i j => est i j = 1 ∧ tru i j = 0 ∧ tru j i ≠ 0 := by
    unfold inter diff flat
    rw [List.filter_filter, List.filter_filter, length_filter]
    unfold count; congr 1; ext q
    simp [mem_positions]
    tauto
  have e9 : (diff (flat (lower est)) (flat (lower tru))).length =
      count fun i j => j ≤ i ∧ est i j + est j i ≠ 0 ∧ tru i j + tru j i = 0 := by
    rw [length_diff]; unfold count; congr 1; ext q; simp [mem_flat, lower]; tauto
  have e10 : (diff (flat (lower tru)) (flat (lower est))).length =
      count fun i j => j ≤ i ∧ tru i j + tru j i ≠ 0 ∧ est i j + est j i = 0 := by
    rw [length_diff]; unfold count; congr 1; ext q; simp [mem_flat, lower]; tauto
  have e11 : (count fun i j => est i j = 1 ∧ tru i j = 0 ∧ tru j i ≠ 0) + (count fun i j => est i j = 1 ∧ tru i j = 0 ∧ tru j i = 0) =
      count fun i j => est i j = 1 ∧ tru i j = 0 := by
    rw [count_add (fun i j a b => a.2.2 b.2.2)]
    exact count_congr fun i j => by tauto
  refine ⟨_, rfl, ?_⟩
  simp only [List.length_append, e1, e2, e3, e4, e5, e6, e7, e8, e9, e10, ← add_assoc, e11]
  exact ⟨trivial, trivial, trivial, trivial, trivial⟩

/-- One pair of variables: the three summands of `shd` cover the differences. -/
theorem pair_cover {a b c f : Int} (ha : a = 0 ∨ a = 1) (hb : b = 0 ∨ b = 1) (hc : c = 0 ∨ c = 1) (hf : f = 0 ∨ f = 1)
    (h1 : ¬(a = 1 ∧ b = 1)) (h2 : ¬(c = 1 ∧ f = 1)) :
    ((c + f ≠ 0 ∧ a + b = 0) ∨ (a + b ≠ 0 ∧ c + f = 0)) ∨ ((c = 1 ∧ b = 1) ∨ (f = 1 ∧ a = 1)) ↔ ¬(c = a ∧ f = b) := by
  rcases ha with rfl | rfl <;> rcases hb with rfl | rfl <;> rcases hc with rfl | rfl <;> rcases hf with rfl | rfl <;> revert h1 h2 <;>
    decide

/-- C61, DAG against DAG: with `T` the true and `E` the estimated edges, `nnz = |E|`, `fdr = |E \ T| / max(|E|, 1)`,
`tpr = |E ∩ T| / max(|T|, 1)`, `fpr = |E \ T| / max(d(d-1)/2 - |T|, 1)`, and `shd` is the number of pairs of variables between
which the two graphs do not have the same edge. -/
theorem c61_dag {isDag : Mat d → Bool} (hI : ∀ B, isDag B = true ↔ Acyclic fun i j => B i j ≠ 0) {tru est : Mat d}
    (hT : ∀ i j, tru i j = 0 ∨ tru i j = 1) (hTd : Acyclic fun i j => tru i j = 1)
    (hE : ∀ i j, est i j = 0 ∨ est i j = 1) (hEd : Acyclic fun i j => est i j = 1) :
    ∃ r, countAccuracy isDag tru est = .ok r ∧ r.nnz = (count fun i j => est i j = 1) ∧
      r.fdr = ((count fun i j => est i j = 1 ∧ tru i j ≠ 1 : Nat) : Rat) / (max (count fun i j => est i j = 1) 1 : Nat) ∧
      r.tpr = ((count fun i j => est i j = 1 ∧ tru i j = 1 : Nat) : Rat) / (max (count fun i j => tru i j = 1) 1 : Nat) ∧
      r.fpr = ((count fun i j => est i j = 1 ∧ tru i j ≠ 1 : Nat) : Rat) /
        max ((d : Rat) * (d - 1) / 2 - ((count fun i j => tru i j = 1 : Nat) : Rat)) 1 ∧
      r.shd = count fun i j => j < i ∧ ¬(est i j = tru i j ∧ est j i = tru j i) := by
  have no : ∀ i j, est i j ≠ -1 := fun i j q => by rcases hE i j with k | k <;> rw [k] at q <;> exact absurd q (by decide)
  have nz : ∀ {B : Mat d}, (∀ i j, B i j = 0 ∨ B i j = 1) → ∀ i j, (B i j ≠ 0 ↔ B i j = 1) := fun h i j => by
    rcases h i j with k | k <;> rw [k] <;> decide
  have z : ∀ i j, tru i j = 0 ↔ tru i j ≠ 1 := fun i j => by rcases hT i j with k | k <;> rw [k] <;> decide
  have hacc : Accepted isDag est := .inl ⟨hE, (hI est).2 (by simpa only [nz hE] using hEd)⟩
  obtain ⟨r, e, h1, h2, h3, h4, h5⟩ := count_spec (tru := tru) hacc
  have c0 : ∀ P : Fin d → Fin d → Prop, (count fun i j => est i j = -1 ∧ P i j) = 0 := fun P => count_zero.2 fun i j q => no i j q.1
  have c1 : (count fun i j => est i j = -1) = 0 := count_zero.2 fun i j q => no i j q
  have t1 : (count fun i j => tru i j ≠ 0) = count fun i j => tru i j = 1 := count_congr fun i j => nz hT i j
  refine ⟨r, e, by rw [h1, c1]; rfl, ?_, ?_, ?_, ?_⟩
  · rw [h2, c0, h1, c1, add_zero, add_zero, count_congr fun i j => and_congr_right fun _ => z i j]
  · rw [h3, c0, t1, add_zero, count_congr fun i j => and_congr_right fun _ => nz hT i j]
  · rw [h4, c0, t1, add_zero, count_congr fun i j => and_congr_right fun _ => z i j]
    congr 2
    ring
  · have two : ∀ {B : Mat d}, Acyclic (fun i j => B i j = 1) → ∀ i j, ¬(B i j = 1 ∧ B j i = 1) :=
      fun h i j q => h i (.head q.1 (.single q.2))
    have one : ∀ {B : Mat d}, Acyclic (fun i j => B i j = 1) → ∀ i, B i i ≠ 1 := fun h i q => h i (.single q)
    have r1 : (count fun i j => est i j = 1 ∧ tru i j = 0 ∧ tru j i ≠ 0) =
        count fun i j => j < i ∧ ((est i j = 1 ∧ tru j i = 1) ∨ (est j i = 1 ∧ tru i j = 1)) := by
      have a1 : (count fun i j => est i j = 1 ∧ tru i j = 0 ∧ tru j i ≠ 0) =
          (count fun i j => j < i ∧ est i j = 1 ∧ tru j i = 1) + count fun i j => i < j ∧ est i j = 1 ∧ tru j i = 1 := by
        rw [count_add (fun i j a b => lt_asymm a.1 b.1)]
        refine count_congr fun i j => ?_
        rw [nz hT]
        constructor
        · rintro ⟨a, -, c⟩
          rcases lt_trichotomy i j with q | rfl | q
          · exact .inr ⟨q, a, c⟩
          · exact absurd a (one hEd i)
          · exact .inl ⟨q, a, c⟩
        · rintro (⟨-, a, c⟩ | ⟨-, a, c⟩) <;> exact ⟨a, (z i j).2 fun q => two hTd i j ⟨q, c⟩, c⟩
      rw [a1, count_swap fun i j => i < j ∧ _, count_add (fun i j a b => two hEd i j ⟨a.2.1, b.2.1⟩)]
      exact count_congr fun i j => by tauto
    rw [h5, r1, count_add, count_add]
    · refine count_congr fun i j => ?_
      rcases lt_trichotomy i j with q | rfl | q
      · simp only [not_le.2 q, lt_asymm q, false_and, or_self]
      · have k1 := (hT i i).resolve_right (one hTd i)
        have k2 := (hE i i).resolve_right (one hEd i)
        simp [k1, k2]
      · simp only [q, q.le, true_and]
        exact pair_cover (hT i j) (hT j i) (hE i j) (hE j i) (two hTd i j) (two hEd i j)
    · rintro i j h ⟨-, h'⟩
      rcases hT i j with x | x <;> rcases hT j i with y | y <;> rcases hE i j with u | u <;> rcases hE j i with v | v <;>
        rw [x, y, u, v] at h <;> rw [x, y, u, v] at h' <;> revert h h' <;> simp
    · intro i j a b
      exact a.2.1 b.2.2

/-- C61: the structural Hamming distance between DAGs is a metric: zero exactly for equal matrices, symmetric, and with the
triangle inequality. -/
theorem c61_metric {isDag : Mat d → Bool} (hI : ∀ B, isDag B = true ↔ Acyclic fun i j => B i j ≠ 0) {A B C : Mat d}
    (hA : ∀ i j, A i j = 0 ∨ A i j = 1) (hAd : Acyclic fun i j => A i j = 1)
    (hB : ∀ i j, B i j = 0 ∨ B i j = 1) (hBd : Acyclic fun i j => B i j = 1)
    (hC : ∀ i j, C i j = 0 ∨ C i j = 1) (hCd : Acyclic fun i j => C i j = 1) :
    ∃ ab ba bc ac, countAccuracy isDag A B = .ok ab ∧ countAccuracy isDag B A = .ok ba ∧ countAccuracy isDag B C = .ok bc ∧
      countAccuracy isDag A C = .ok ac ∧ (ab.shd = 0 ↔ A = B) ∧ ab.shd = ba.shd ∧ ac.shd ≤ ab.shd + bc.shd := by
  obtain ⟨ab, e1, -, -, -, -, s1⟩ := c61_dag hI hA hAd hB hBd
  obtain ⟨ba, e2, -, -, -, -, s2⟩ := c61_dag hI hB hBd hA hAd
  obtain ⟨bc, e3, -, -, -, -, s3⟩ := c61_dag hI hB hBd hC hCd
  obtain ⟨ac, e4, -, -, -, -, s4⟩ := c61_dag hI hA hAd hC hCd
  refine ⟨ab, ba, bc, ac, e1, e2, e3, e4, ?_, ?_, ?_⟩
  · rw [s1, count_zero]
    constructor
    · intro h
      ext i j
      rcases lt_trichotomy i j with q | rfl | q
      · exact ((not_not.1 fun k => h j i ⟨q, k⟩).2).symm
      · rw [(hA i i).resolve_right fun q => hAd i (.single q), (hB i i).resolve_right fun q => hBd i (.single q)]
      · exact ((not_not.1 fun k => h i j ⟨q, k⟩).1).symm
    · rintro rfl i j ⟨-, k⟩
      exact k ⟨rfl, rfl⟩
  · rw [s1, s2]
    exact count_congr fun i j => by rw [eq_comm, eq_comm (a := B j i)]
  · rw [s1, s3, s4]
    refine (count_le fun i j h => ?_).trans (count_or_le _ _)
    by_cases k : B i j = A i j ∧ B j i = A j i
    · exact .inr ⟨h.1, by rw [k.1, k.2]; exact h.2⟩
    · exact .inl ⟨h.1, k⟩

/-- The rates between DAGs lie between 0 and 1 (except `fpr`, whose denominator does not count the edges of the true graph, see
`c61_fpr`), and `tpr` is 1 with `fdr` 0 exactly when the graphs are equal (and not both empty). -/
theorem c61_rates {isDag : Mat d → Bool} (hI : ∀ B, isDag B = true ↔ Acyclic fun i j => B i j ≠ 0) {tru est : Mat d}
    (hT : ∀ i j, tru i j = 0 ∨ tru i j = 1) (hTd : Acyclic fun i j => tru i j = 1)
    (hE : ∀ i j, est i j = 0 ∨ est i j = 1) (hEd : Acyclic fun i j => est i j = 1) :
    ∃ r, countAccuracy isDag tru est = .ok r ∧ 0 ≤ r.fdr ∧ r.fdr ≤ 1 ∧ 0 ≤ r.tpr ∧ r.tpr ≤ 1 ∧
      ((∃ i j, tru i j = 1) → (r.tpr = 1 ∧ r.fdr = 0 ↔ est = tru)) := by
  obtain ⟨r, e, -, s1, s2, -, -⟩ := c61_dag hI hT hTd hE hEd
  have le1 : (count fun i j => est i j = 1 ∧ tru i j ≠ 1) ≤ count fun i j => est i j = 1 := count_le fun _ _ h => h.1
  have le2 : (count fun i j => est i j = 1 ∧ tru i j = 1) ≤ count fun i j => tru i j = 1 := count_le fun _ _ h => h.2
  refine ⟨r, e, by rw [s1]; positivity, ?_, by rw [s2]; positivity, ?_, ?_⟩
  · rw [s1]
    exact div_le_one_of_le₀ (by exact_mod_cast le1.trans (le_max_left _ _)) (by positivity)
  · rw [s2]
    exact div_le_one_of_le₀ (by exact_mod_cast le2.trans (le_max_left _ _)) (by positivity)
  · rintro ⟨a, b, hab⟩
    have pos : 1 ≤ count fun i j => tru i j = 1 := Nat.one_le_iff_ne_zero.2 fun q => count_zero.1 q a b hab
    rw [s1, s2, max_eq_left pos, div_eq_one_iff_eq (by positivity), div_eq_zero_iff]
    have mx : (((max (count fun i j => est i j = 1) 1 : Nat) : Rat)) ≠ 0 := by positivity
    rw [or_iff_left mx]
    norm_cast
    constructor
    · rintro ⟨h1, h2⟩
      have k1 := count_zero.1 h2
      have k2 : (count fun i j => tru i j = 1 ∧ est i j ≠ 1) = 0 := by
        have := count_add (P := fun i j => est i j = 1 ∧ tru i j = 1) (Q := fun i j => tru i j = 1 ∧ est i j ≠ 1)
          (fun i j a b => b.2 a.1)
        have e2 : (count fun i j => (est i j = 1 ∧ tru i j = 1) ∨ (tru i j = 1 ∧ est i j ≠ 1)) = count fun i j => tru i j = 1 :=
          count_congr fun i j => by tauto
        omega
      ext i j
      have k3 := k1 i j
      have k4 := count_zero.1 k2 i j
      rcases hT i j with x | x <;> rcases hE i j with y | y <;> simp_all
    · rintro rfl
      exact ⟨count_congr fun i j => and_self_iff, count_zero.2 fun i j q => q.2 q.1⟩

/-- C61, completed PDAG against DAG, when no pair is marked both directed and undirected: the rates lie between 0 and 1 and
`shd` is the number of pairs adjacent in one graph only plus the number of reversed edges. -/
theorem c61_cpdag {isDag : Mat d → Bool} {tru est : Mat d} (hT : ∀ i j, tru i j = 0 ∨ tru i j = 1)
    (hE : Accepted isDag est) (clash : ∀ i j, ¬(est i j = 1 ∧ est j i = -1)) :
    ∃ r, countAccuracy isDag tru est = .ok r ∧ 0 ≤ r.fdr ∧ r.fdr ≤ 1 ∧ 0 ≤ r.tpr ∧ r.tpr ≤ 1 ∧
      r.nnz = (count fun i j => est i j ≠ 0) ∧
      r.shd = (count fun i j => j ≤ i ∧ ¬((est i j ≠ 0 ∨ est j i ≠ 0) ↔ (tru i j ≠ 0 ∨ tru j i ≠ 0))) +
        count (fun i j => est i j = 1 ∧ tru i j = 0 ∧ tru j i = 1) := by
  obtain ⟨r, e, h1, h2, h3, -, h5⟩ := count_spec (tru := tru) hE
  have ev : ∀ i j, est i j = 0 ∨ est i j = 1 ∨ est i j = -1 := by
    rcases hE with ⟨h, -⟩ | ⟨-, h, -⟩
    · exact fun i j => (h i j).elim .inl fun q => .inr (.inl q)
    · exact h
  have dbl : ∀ i j, ¬(est i j = -1 ∧ est j i = -1) := by
    rcases hE with ⟨h, -⟩ | ⟨-, -, h⟩
    · rintro i j ⟨q, -⟩
      rcases h i j with k | k <;> rw [k] at q <;> exact absurd q (by decide)
    · exact h
  have ne1 : ∀ {x : Int}, x = 1 → ¬ x = -1 := fun h => by rw [h]; decide
  have n : r.nnz = count fun i j => est i j ≠ 0 := by
    rw [h1, count_add (P := fun i j => est i j = 1) (Q := fun i j => est i j = -1) (fun i j q => ne1 q)]
    refine count_congr fun i j => ?_
    rcases ev i j with k | k | k <;> rw [k] <;> decide
  have f1 : (count fun i j => est i j = 1 ∧ tru i j = 0) + (count fun i j => est i j = -1 ∧ tru i j = 0 ∧ tru j i = 0) ≤ r.nnz := by
    rw [h1]
    exact Nat.add_le_add (count_le fun _ _ h => h.1) (count_le fun _ _ h => h.1)
  have t1 : (count fun i j => est i j = 1 ∧ tru i j ≠ 0) + (count fun i j => est i j = -1 ∧ (tru i j ≠ 0 ∨ tru j i ≠ 0)) ≤
      count fun i j => tru i j ≠ 0 := by
    have a1 : (count fun i j => est i j = -1 ∧ (tru i j ≠ 0 ∨ tru j i ≠ 0)) ≤
        (count fun i j => est i j = -1 ∧ tru i j ≠ 0) + count fun i j => est j i = -1 ∧ tru i j ≠ 0 := by
      rw [count_swap fun i j => est j i = -1 ∧ tru i j ≠ 0]
      exact (count_le fun i j h => by tauto).trans (count_or_le _ _)
    have a2 : (count fun i j => est i j = 1 ∧ tru i j ≠ 0) + (count fun i j => est i j = -1 ∧ tru i j ≠ 0) +
        (count fun i j => est j i = -1 ∧ tru i j ≠ 0) ≤ count fun i j => tru i j ≠ 0 := by
      rw [count_add (fun i j a b => ne1 a.1 b.1), count_add]
      · exact count_le fun i j h => by tauto
      · rintro i j (a | a) b
        · exact clash i j ⟨a.1, b.1⟩
        · exact dbl i j ⟨a.1, b.1⟩
    omega
  refine ⟨r, e, by rw [h2]; positivity, ?_, by rw [h3]; positivity, ?_, n, ?_⟩
  · rw [h2]
    exact div_le_one_of_le₀ (by exact_mod_cast f1.trans (le_max_left _ _)) (by positivity)
  · rw [h3]
    exact div_le_one_of_le₀ (by exact_mod_cast t1.trans (le_max_left _ _)) (by positivity)
  · have ze : ∀ i j, est i j + est j i ≠ 0 ↔ (est i j ≠ 0 ∨ est j i ≠ 0) := by
      intro i j
      have c1 := clash i j
      have c2 := clash j i
      rcases ev i j with k | k | k <;> rcases ev j i with l | l | l <;> rw [k, l] <;> rw [k, l] at c1 c2 <;> revert c1 c2 <;> decide
    have zt : ∀ i j, tru i j + tru j i ≠ 0 ↔ (tru i j ≠ 0 ∨ tru j i ≠ 0) := by
      intro i j
      rcases hT i j with k | k <;> rcases hT j i with l | l <;> rw [k, l] <;> decide
    have one : ∀ i j, tru i j ≠ 0 ↔ tru i j = 1 := fun i j => by rcases hT i j with k | k <;> rw [k] <;> decide
    rw [h5, count_add (fun i j a b => a.2.1 b.2.2)]
    congr 1
    · refine count_congr fun i j => ?_
      rw [← ze, ← zt]
      tauto
    · exact count_congr fun i j => by rw [one j i]

/-- An acyclicity test for evaluation: the constraint of C57. -/
def isDagH (hd : 0 < d) : { f : Mat d → Bool // ∀ B, f B = true ↔ Acyclic fun i j => B i j ≠ 0 } :=
  ⟨fun B => decide ((Notears.hW (fun i j => (B i j : Rat))).1 = 0), fun B => by
    rw [decide_eq_true_eq]
    refine (c57_linear hd _).2.trans ?_
    simp only [ne_eq, Int.cast_eq_zero]⟩

/-- `0 → 1 → 2`. -/
def chain3 : Mat 3 := fun i j => if j.val = i.val + 1 then 1 else 0
/-- `0 → 1 ← 2`. -/
def vee3 : Mat 3 := fun i j => if j = 1 ∧ i ≠ 1 then 1 else 0
/-- `0 - 1 → 2`, the undirected edge written once. -/
def part3 : Mat 3 := fun i j => if (i, j) = (1, 0) then -1 else if (i, j) = (1, 2) then 1 else 0

example : countAccuracy (isDagH (by decide)).1 chain3 vee3 = .ok ⟨1 / 2, 1 / 2, 1, 1, 2⟩ := by decide +kernel
example : countAccuracy (isDagH (by decide)).1 chain3 part3 = .ok ⟨0, 1, 0, 0, 2⟩ := by decide +kernel
example : countAccuracy (isDagH (by decide)).1 chain3 (fun i j => if i = j then 0 else 1) = .error .value := by decide +kernel
example : (∀ i j, chain3 i j = 0 ∨ chain3 i j = 1) ∧ (∀ i j, ¬(part3 i j = 1 ∧ part3 j i = -1)) ∧ ∃ i j, part3 i j = -1 := by decide

example : (Acyclic fun i j => chain3 i j ≠ 0) ∧ Acyclic fun i j => vee3 i j ≠ 0 :=
  ⟨((isDagH (by decide)).2 chain3).1 (by decide +kernel), ((isDagH (by decide)).2 vee3).1 (by decide +kernel)⟩

/-- C61, finding: a pair marked both directed and undirected is accepted; the true edge is then counted twice, so that `tpr` is
2, and the two marks cancel in `shd`, which reports the edge as missing. -/
theorem c61_clash : countAccuracy (isDagH (d := 2) (by decide)).1 (fun i j => if i < j then 1 else 0)
    (fun i j => if i < j then 1 else if j < i then -1 else 0) = .ok ⟨0, 2, 0, 1, 2⟩ := by decide +kernel

/-- C61, finding: `fpr` is no rate: with all edges reversed it is the number of edges. -/
theorem c61_fpr : (countAccuracy (isDagH (d := 3) (by decide)).1 (fun i j => if i < j then 1 else 0)
    (fun i j => if j < i then 1 else 0)).map Result.fpr = .ok 3 := by decide +kernel

end
end Cdmir
