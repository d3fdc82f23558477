import Verif.Props.Hsic

/-! C84: which kernel the HSIC test uses. -/

namespace Cdmir.KTest
open BigOperators

variable {n d e : Nat}

/-- The pairs of rows at a positive distance that has the property `p`. -/
noncomputable def Pairs (X : Data n d) (p : ℝ → Prop) : ℕ :=
  by
    classical
    exact (Finset.univ.filter fun ij : Fin n × Fin n =>
      ij.1 < ij.2 ∧ 0 < ∑ k, (X ij.1 k - X ij.2 k) ^ 2 ∧ p (∑ k, (X ij.1 k - X ij.2 k) ^ 2)).card

/-- `x` is a median of the positive squared distances between the rows: at most half of them are smaller, at most half are larger. -/
def IsMedian (X : Data n d) (x : ℝ) : Prop :=
  2 * Pairs X (fun y => y < x) ≤ Pairs X (fun _ => True) ∧ 2 * Pairs X (fun y => x < y) ≤ Pairs X (fun _ => True)

/-- `m` is the middle of the interval of all medians. -/
def IsMidMedian (X : Data n d) (m : ℝ) : Prop := ∃ a b, m = (a + b) / 2 ∧ ∀ x, IsMedian X x ↔ a ≤ x ∧ x ≤ b

theorem countP_map_finRange {m : Nat} (g : Fin m → ℝ) (p : ℝ → Bool) :
    ((List.finRange m).map g).countP p = ∑ j, if p (g j) = true then 1 else 0 := by
  rw [List.countP_map, List.countP_eq_length_filter, ← List.sum_ofFn]
  rw [List.ofFn_eq_map]
  generalize List.finRange m = l
  induction l with
  | nil => rfl
  | cons x l ih =>
    rw [List.filter_cons, List.map_cons, List.sum_cons, ← ih]
    by_cases h : p (g x) = true
    · simp [h, Nat.add_comm]
    · simp [h]

theorem pairs_upper (X : Data n d) (p : ℝ → Bool) : (upper (sqDist X)).countP p = Pairs X (fun y => p y = true) := by
  classical
  unfold upper Pairs
  rw [List.countP_filter]
  rw [List.countP_flatMap]
  have h : (List.map (List.countP (fun a => p a && decide (0 < a)) ∘ fun i => (List.finRange n).map fun j => if i < j then sqDist X i j else 0)
      (List.finRange n)) = (List.finRange n).map fun i => ∑ j, if i < j ∧ 0 < sqDist X i j ∧ p (sqDist X i j) = true then 1 else 0 := by
    refine List.map_congr_left fun i _ => ?_
    rw [Function.comp, countP_map_finRange]
    refine Finset.sum_congr rfl fun j _ => ?_
    by_cases hij : i < j
    · by_cases h0 : 0 < sqDist X i j <;> by_cases hp : p (sqDist X i j) = true <;> simp [hij, h0, hp]
    · simp [hij]
  rw [h, ← List.ofFn_eq_map, List.sum_ofFn, Finset.card_filter, ← Finset.univ_product_univ, Finset.sum_product]
  refine Finset.sum_congr rfl fun i _ => Finset.sum_congr rfl fun j _ => ?_
  have : (i < j ∧ 0 < sqDist X i j ∧ p (sqDist X i j) = true) ↔ ((i, j).1 < (i, j).2 ∧ 0 < ∑ k, (X (i, j).1 k - X (i, j).2 k) ^ 2 ∧
      (fun y => p y = true) (∑ k, (X (i, j).1 k - X (i, j).2 k) ^ 2)) := Iff.rfl
  by_cases h : i < j ∧ 0 < sqDist X i j ∧ p (sqDist X i j) = true
  · rw [if_pos h, if_pos (this.1 h)]
  · rw [if_neg h, if_neg fun q => h (this.2 q)]

theorem sorted_lt {s : List ℝ} (hs : s.Pairwise (· ≤ ·)) {k : Nat} (hk : k < s.length) (x : ℝ) :
    s.countP (fun y => decide (y < x)) ≤ k ↔ x ≤ s[k] := by
  have hsplit : s = s.take (k + 1) ++ s.drop (k + 1) := (List.take_append_drop _ _).symm
  have hsplit' : s = s.take k ++ s.drop k := (List.take_append_drop _ _).symm
  have hle : ∀ i j (hi : i < s.length) (hj : j < s.length), i ≤ j → s[i] ≤ s[j] := by
    intro i j hi hj hij
    rcases Nat.lt_or_eq_of_le hij with h | h
    · exact List.pairwise_iff_getElem.1 hs i j hi hj h
    · subst h
      exact le_refl _
  constructor
  · intro h
    by_contra hx
    rw [not_le] at hx
    have h1 : (s.take (k + 1)).countP (fun y => decide (y < x)) = k + 1 := by
      rw [List.countP_eq_length.2, List.length_take, Nat.min_eq_left hk]
      intro y hy
      obtain ⟨i, hi, rfl⟩ := List.getElem_of_mem hy
      rw [List.length_take] at hi
      rw [List.getElem_take, decide_eq_true_eq]
      exact lt_of_le_of_lt (hle i k (by omega) hk (by omega)) hx
    have h2 : (s.take (k + 1)).countP (fun y => decide (y < x)) ≤ s.countP (fun y => decide (y < x)) :=
      (List.take_sublist _ _).countP_le
    omega
  · intro hx
    have h1 : (s.drop k).countP (fun y => decide (y < x)) = 0 := by
      rw [List.countP_eq_zero]
      intro y hy
      obtain ⟨i, hi, rfl⟩ := List.getElem_of_mem hy
      rw [List.length_drop] at hi
      rw [List.getElem_drop, decide_eq_true_eq, not_lt]
      exact le_trans hx (hle k (k + i) hk (by omega) (by omega))
    have h2 : (s.take k).countP (fun y => decide (y < x)) ≤ k := le_trans List.countP_le_length (by rw [List.length_take]; omega)
    have h3 : s.countP (fun y => decide (y < x)) = (s.take k).countP (fun y => decide (y < x)) + (s.drop k).countP (fun y => decide (y < x)) := by
      rw [← List.countP_append, List.take_append_drop]
    omega

theorem sorted_le {s : List ℝ} (hs : s.Pairwise (· ≤ ·)) {k : Nat} (hk : k < s.length) (x : ℝ) :
    s.countP (fun y => decide (y ≤ x)) ≤ k ↔ x < s[k] := by
  have hle : ∀ i j (hi : i < s.length) (hj : j < s.length), i ≤ j → s[i] ≤ s[j] := by
    intro i j hi hj hij
    rcases Nat.lt_or_eq_of_le hij with h | h
    · exact List.pairwise_iff_getElem.1 hs i j hi hj h
    · subst h
      exact le_refl _
  constructor
  · intro h
    by_contra hx
    rw [not_lt] at hx
    have h1 : (s.take (k + 1)).countP (fun y => decide (y ≤ x)) = k + 1 := by
      rw [List.countP_eq_length.2, List.length_take, Nat.min_eq_left hk]
      intro y hy
      obtain ⟨i, hi, rfl⟩ := List.getElem_of_mem hy
      rw [List.length_take] at hi
      rw [List.getElem_take, decide_eq_true_eq]
      exact le_trans (hle i k (by omega) hk (by omega)) hx
    have h2 : (s.take (k + 1)).countP (fun y => decide (y ≤ x)) ≤ s.countP (fun y => decide (y ≤ x)) :=
      (List.take_sublist _ _).countP_le
    omega
  · intro hx
    have h1 : (s.drop k).countP (fun y => decide (y ≤ x)) = 0 := by
      rw [List.countP_eq_zero]
      intro y hy
      obtain ⟨i, hi, rfl⟩ := List.getElem_of_mem hy
      rw [List.length_drop] at hi
      rw [List.getElem_drop, decide_eq_true_eq, not_le]
      exact lt_of_lt_of_le hx (hle k (k + i) hk (by omega) (by omega))
    have h2 : (s.take k).countP (fun y => decide (y ≤ x)) ≤ k := le_trans List.countP_le_length (by rw [List.length_take]; omega)
    have h3 : s.countP (fun y => decide (y ≤ x)) = (s.take k).countP (fun y => decide (y ≤ x)) + (s.drop k).countP (fun y => decide (y ≤ x)) := by
      rw [← List.countP_append, List.take_append_drop]
    omega

theorem median_mid {l : List ℝ} {m : ℝ} (h : median l = some m) : ∃ a b, m = (a + b) / 2 ∧
    ∀ x, (2 * l.countP (fun y => decide (y < x)) ≤ l.length ∧ 2 * l.countP (fun y => decide (x < y)) ≤ l.length) ↔ a ≤ x ∧ x ≤ b := by
  set s := l.insertionSort (· ≤ ·) with hs
  have hp : s.Perm l := List.perm_insertionSort _ _
  have hsort : s.Pairwise (· ≤ ·) := List.pairwise_insertionSort _ _
  have hlen : s.length = l.length := hp.length_eq
  have hl : l ≠ [] := fun h' => by rw [median_none.2 h'] at h; cases h
  have h0 : 0 < l.length := List.length_pos_iff.2 hl
  have hka : (l.length - 1) / 2 < s.length := by omega
  have hkb : l.length / 2 < s.length := by omega
  refine ⟨s[(l.length - 1) / 2], s[l.length / 2], ?_, fun x => ?_⟩
  · unfold median at h
    simp only at h
    rw [if_neg hl] at h
    have hget : ∀ k (hk : k < s.length), s.getD k 0 = s[k] := fun k hk => by
      rw [List.getD_eq_getElem?_getD, List.getElem?_eq_getElem hk, Option.getD_some]
    split at h
    · rename_i ho
      cases h
      have e : (l.length - 1) / 2 = l.length / 2 := by omega
      rw [hget _ hkb]
      simp only [e]
      ring
    · rename_i ho
      cases h
      have e : l.length / 2 - 1 = (l.length - 1) / 2 := by omega
      rw [e, hget _ hka, hget _ hkb]
  · rw [← hp.countP_eq, ← hp.countP_eq]
    have hc : s.countP (fun y => decide (x < y)) + s.countP (fun y => decide (y ≤ x)) = s.length := by
      have := List.length_eq_countP_add_countP (fun y => decide (x < y)) (l := s)
      have e : (fun y : ℝ => decide ¬decide (x < y) = true) = fun y => decide (y ≤ x) := by
        funext y
        simp
      rw [e] at this
      omega
    have h1 := sorted_lt hsort hkb x
    have h2 := sorted_le hsort hka x
    constructor
    · rintro ⟨ha, hb⟩
      refine ⟨?_, h1.1 (by omega)⟩
      by_contra hx
      rw [not_le] at hx
      have := h2.2 hx
      omega
    · rintro ⟨ha, hb⟩
      have h1' := h1.2 hb
      have h2' : ¬ s.countP (fun y => decide (y ≤ x)) ≤ (l.length - 1) / 2 := fun q => absurd (h2.1 q) (not_lt.2 ha)
      omega

theorem kernelOf_mid {X : Data n d} {K : Matrix (Fin n) (Fin n) ℝ} (h : kernelOf X = some K) :
    ∃ m, IsMidMedian X m ∧ ∀ i j, K i j = Real.exp (-(∑ k, (X i k - X j k) ^ 2) / m) := by
  rw [kernelOf_eq] at h
  obtain ⟨m, hm, rfl⟩ := Option.map_eq_some_iff.1 h
  obtain ⟨a, b, hab, hx⟩ := median_mid hm
  refine ⟨m, ⟨a, b, hab, fun x => ?_⟩, fun i j => ?_⟩
  · rw [← hx x]
    unfold IsMedian
    have e1 := pairs_upper X (fun y => decide (y < x))
    have e2 := pairs_upper X (fun y => decide (x < y))
    have e3 := pairs_upper X (fun _ => true)
    simp only [decide_eq_true_eq] at e1 e2
    have e4 : (upper (sqDist X)).countP (fun _ => true) = (upper (sqDist X)).length := by simp
    rw [e4] at e3
    simp only [← e1, ← e2, e3]
  · simp only [expMat, Matrix.of_apply]
    congr 1
    unfold sqDist
    rw [inv_mul_eq_div, neg_div]

/-- C84. The statistic is the sum of the products of the entries of the two centred kernel matrices, divided by the number of rows. The kernel of
a sample is `exp(-dist / m)`, where `dist` is the squared distance of two rows and `m` the median of the positive ones. -/
theorem c84_kernel (ppf : ℝ → ℝ → ℝ → Option ℝ) (alpha : ℝ) (X : Data n d) (Y : Data n e) {s : ℝ} (h : (hsicGam ppf alpha X Y).1 = some s) :
    ∃ mx my, IsMidMedian X mx ∧ IsMidMedian Y my ∧
      ∃ K L : Matrix (Fin n) (Fin n) ℝ, (∀ i j, K i j = Real.exp (-(∑ k, (X i k - X j k) ^ 2) / mx)) ∧
        (∀ i j, L i j = Real.exp (-(∑ k, (Y i k - Y j k) ^ 2) / my)) ∧
        s = (∑ i, ∑ j, (Spec.centring ℝ n * K * Spec.centring ℝ n) i j * (Spec.centring ℝ n * L * Spec.centring ℝ n) i j) / n := by
  rw [hsicGam_eq] at h
  cases hX : kernelOf X with
  | none => rw [hX] at h; cases h
  | some K =>
    cases hY : kernelOf Y with
    | none => rw [hX, hY] at h; cases h
    | some L =>
      rw [hX, hY] at h
      obtain ⟨mx, h1, h2⟩ := kernelOf_mid hX
      obtain ⟨my, h3, h4⟩ := kernelOf_mid hY
      refine ⟨mx, my, h1, h3, K, L, h2, h4, ?_⟩
      have hs := Option.some.inj h
      rw [statOf_eq (psd_symm (center_psd (kernelOf_some hX).1))] at hs
      rw [← hs, ← hMat_eq]
      rfl

section examples

/-- Four rows with the distances 1, 4, 9, 1, 4, 1: the median is 2.5. -/
def exW : Data 4 1 := ![![0], ![1], ![2], ![3]]

example : ∃ s, (hsicGam (fun _ _ _ => none) (1 / 20) exW exW).1 = some s := by
  rw [hsicGam_eq]
  cases h : kernelOf exW with
  | none =>
    have := congrFun (kernelOf_none.1 h 0 1) 0
    norm_num [exW] at this
  | some K => exact ⟨_, rfl⟩

end examples

end Cdmir.KTest
