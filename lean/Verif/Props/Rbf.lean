import Verif.Model.Rbf
import Verif.Model.Cache
import Verif.Lemmas.Hsic
import Verif.Props.Kci
import Mathlib.Analysis.Matrix.Order

/-! C174: the kernel functions of the scores. -/

namespace Cdmir.Rbf
open BigOperators

/-- The squared distance of row `i` of `x` and row `j` of `c`. -/
def rowDist (x c : Arr) (i j : ℕ) : ℝ := ∑ k ∈ Finset.range x.c, (x.f i k - c.f j k) ^ 2

theorem rowDist_eq {x c : Arr} (h : x.c = c.c) (i j : ℕ) : sq x i + sq c j - 2 * (∑ k ∈ Finset.range x.c, x.f i k * c.f j k) = rowDist x c i j := by
  unfold sq rowDist
  rw [← h, Finset.mul_sum, ← Finset.sum_add_distrib, ← Finset.sum_sub_distrib]
  exact Finset.sum_congr rfl fun k _ => by ring

theorem rowDist_nonneg (x c : Arr) (i j : ℕ) : 0 ≤ rowDist x c i j := Finset.sum_nonneg fun _ _ => sq_nonneg _

theorem bdim_self (a : ℕ) : bdim a a = .ok a := by simp [bdim]

theorem bpos_lt {a i : ℕ} (h : i < a) : bpos a i = i := by
  unfold bpos
  split <;> omega

theorem dist2_matmul {x c : Arr} (h : x.c = c.c) : dist2 matmul x c = .ok ⟨x.r, c.r, fun i j =>
    let v := sq x (bpos x.r i) + sq c (bpos c.r j) - 2 * ∑ k ∈ Finset.range x.c, x.f (bpos x.r i) k * c.f (bpos c.r j) k
    if v < 0 then 0 else v⟩ := by
  simp [dist2, h, matmul, Arr.T, ewise, bdim_self, bind, Except.bind, pure, Except.pure]

theorem dist2_column {x c : Arr} (hx : x.c = 1) (hc : c.c = 1) : dist2 (ewise (· * ·)) x c = .ok ⟨x.r, c.r, fun i j =>
    let v := sq x (bpos x.r i) + sq c (bpos c.r j) - 2 * (x.f (bpos x.r (bpos x.r i)) (bpos 1 (bpos c.r j)) * c.f (bpos c.r (bpos c.r j)) (bpos 1 (bpos x.r i)))
    if v < 0 then 0 else v⟩ := by
  have b1 : bdim x.r 1 = .ok x.r := by unfold bdim; split_ifs <;> simp_all
  have b2 : bdim 1 c.r = .ok c.r := by unfold bdim; split_ifs <;> simp_all
  simp [dist2, hx, hc, Arr.T, ewise, b1, b2, bdim_self, bind, Except.bind, pure, Except.pure]

/-- **C174, distances.** `dist2` with the product of matrices: an array with one row per row of `x` and one column per row of `c` that holds the squared
distances, and an exception if the numbers of columns differ. -/
theorem c174_dist (x c : Arr) : (x.c ≠ c.c → dist2 matmul x c = .error .exception) ∧
    (x.c = c.c → ∃ n2, dist2 matmul x c = .ok n2 ∧ n2.r = x.r ∧ n2.c = c.r ∧ ∀ i < x.r, ∀ j < c.r, n2.f i j = rowDist x c i j) := by
  constructor
  · intro h
    simp [dist2, h, bind, Except.bind, throw, throwThe, MonadExceptOf.throw]
  · intro h
    refine ⟨_, dist2_matmul h, rfl, rfl, fun i hi j hj => ?_⟩
    simp only [bpos_lt hi, bpos_lt hj]
    rw [rowDist_eq h, if_neg (not_lt.2 (rowDist_nonneg _ _ _ _))]

/-- **C174, plain arrays of one column.** Then the product entry by entry is the product of matrices. -/
theorem c174_column {x c : Arr} (hx : x.c = 1) (hc : c.c = 1) : ∃ n2, dist2 (ewise (· * ·)) x c = .ok n2 ∧ n2.r = x.r ∧ n2.c = c.r ∧
    ∀ i < x.r, ∀ j < c.r, n2.f i j = rowDist x c i j := by
  refine ⟨_, dist2_column hx hc, rfl, rfl, fun i hi j hj => ?_⟩
  have e := rowDist_eq (hx.trans hc.symm) i j
  rw [hx, Finset.sum_range_one] at e
  have z : bpos 1 i = 0 ∧ bpos 1 j = 0 := ⟨rfl, rfl⟩
  simp only [bpos_lt hi, bpos_lt hj]
  rw [z.1, z.2, e, if_neg (not_lt.2 (rowDist_nonneg _ _ _ _))]

/-- **C174, plain arrays of more columns.** Unless the number of rows is 1 or the number of columns, `dist2` of score_utils.py raises `ValueError`. -/
theorem c174_plain {x c : Arr} (h : x.c = c.c) (h2 : 2 ≤ x.c) (hr : (x.r ≠ 1 ∧ x.r ≠ x.c) ∨ (c.r ≠ 1 ∧ c.r ≠ x.c)) : dist2 (ewise (· * ·)) x c = .error .value := by
  have hb : ∀ a b : ℕ, a ≠ b → a ≠ 1 → b ≠ 1 → bdim a b = .error .value := fun a b h1 h2 h3 => by simp [bdim, h1, h2, h3]
  have hm : ewise (· * ·) x c.T = .error .value := by
    unfold ewise Arr.T
    rcases hr with ⟨q1, q2⟩ | ⟨q1, q2⟩
    · rw [hb x.r c.c (by omega) q1 (by omega)]
      rfl
    · cases hq : bdim x.r c.c with
      | error e =>
        have : e = .value := by
          unfold bdim at hq
          split_ifs at hq
          exact (Except.error.inj hq).symm
        subst this
        rfl
      | ok r =>
        simp only [bind, Except.bind]
        rw [hb x.c c.r (by omega) (by omega) q1]
  unfold dist2
  rw [hm]
  simp [h, bind, Except.bind]

/-- Two rows, `0, 1` and `1, 0`. -/
def exSwap : Arr := ⟨2, 2, fun i j => if i = j then 0 else 1⟩

/-- **C174, plain arrays with as many rows as columns.** One would expect the distance of a row to itself to be 0; here it is 2. -/
theorem c174_plain_false : ∃ n2, dist2 (ewise (· * ·)) exSwap exSwap = .ok n2 ∧ n2.f 0 0 = 2 ∧ rowDist exSwap exSwap 0 0 = 0 := by
  obtain ⟨n2, h⟩ : ∃ n2, dist2 (ewise (· * ·)) exSwap exSwap = .ok n2 := ⟨⟨2, 2, _⟩, rfl⟩
  refine ⟨n2, h, ?_, by simp [rowDist]⟩
  obtain rfl := Except.ok.inj h
  simp [bpos, sq, exSwap, Finset.sum_range_succ]
  norm_num

/-- The data suits the product: both have the same number of columns, and plain arrays have one column where `*` is used. -/
def Suits (mul : Arr → Arr → Except Err Arr) (x c : Arr) : Prop := x.c = c.c ∧ (mul = matmul ∨ mul = ewise (· * ·) ∧ x.c = 1)

theorem Suits.dist {mul : Arr → Arr → Except Err Arr} {x c : Arr} (h : Suits mul x c) : ∃ n2, dist2 mul x c = .ok n2 ∧ n2.r = x.r ∧ n2.c = c.r ∧
    ∀ i < x.r, ∀ j < c.r, n2.f i j = rowDist x c i j := by
  rcases h with ⟨hc, rfl | ⟨rfl, h1⟩⟩
  · exact (c174_dist x c).2 hc
  · exact c174_column h1 (hc ▸ h1)

variable {mul : Arr → Arr → Except Err Arr} {x c : Arr}

/-- **C174, a given width.** The entry at `i`, `j` is `theta[1]` times the exponential of minus half `theta[0]` times the squared distance of the rows, and
`theta` stays as it is. -/
theorem c174_given (h : Suits mul x c) {theta : Theta} {t : ℝ} (ht : theta.t0 = some t) (h0 : t ≠ 0) :
    ∃ K, kernel mul x c theta = .ok (some (K, 1 / t), theta) ∧ K.r = x.r ∧ K.c = c.r ∧
      ∀ i < x.r, ∀ j < c.r, K.f i j = theta.t1 * Real.exp (-(t / 2 * rowDist x c i j)) := by
  obtain ⟨n2, e, e1, e2, e3⟩ := h.dist
  refine ⟨⟨n2.r, n2.c, fun i j => theta.t1 * Real.exp (-n2.f i j * (t / 2))⟩, ?_, e1, e2, fun i hi j hj => ?_⟩
  · simp [kernel, e, ht, h0, bind, Except.bind, pure, Except.pure]
  · simp only [e3 i hi j hj]
    congr 2
    ring

/-- **C174, a tuple.** With a tuple whose first entry is 0 the function raises `TypeError`. -/
theorem c174_tuple (h : Suits mul x c) {theta : Theta} (ht : theta.t0 = some 0) (hl : theta.isTuple = true) : kernel mul x c theta = .error .type := by
  obtain ⟨n2, e, _⟩ := h.dist
  simp [kernel, e, ht, hl, bind, Except.bind, throw, throwThe, MonadExceptOf.throw]

/-- The positive squared distances of row `i` of `x` and row `j` of `c`, for `j` at most `i`. -/
noncomputable def lowerDists (x c : Arr) : List ℝ :=
  ((List.finRange x.r).flatMap fun i : Fin x.r => (List.finRange c.r).map fun j : Fin c.r => if (j : ℕ) ≤ i then rowDist x c i j else 0).filter fun v => decide (0 < v)

theorem lower_eq {n2 : Arr} (h1 : n2.r = x.r) (h2 : n2.c = c.r) (h3 : ∀ i < x.r, ∀ j < c.r, n2.f i j = rowDist x c i j) : lower n2 = lowerDists x c := by
  obtain ⟨r, l, f⟩ := n2
  simp only at h1 h2
  subst h1 h2
  unfold lower lowerDists
  congr 1
  refine congrArg List.flatten (List.map_congr_left fun i _ => List.map_congr_left fun j _ => ?_)
  rw [h3 i i.2 j j.2]

theorem mem_lowerDists {v : ℝ} : v ∈ lowerDists x c ↔ 0 < v ∧ ∃ i < x.r, ∃ j < c.r, j ≤ i ∧ v = rowDist x c i j := by
  unfold lowerDists
  simp only [List.mem_filter, List.mem_flatMap, List.mem_finRange, List.mem_map, true_and, decide_eq_true_eq]
  constructor
  · rintro ⟨⟨i, j, e⟩, hv⟩
    refine ⟨hv, i, i.2, j, j.2, ?_⟩
    split_ifs at e with h
    · exact ⟨h, e.symm⟩
    · exact absurd e hv.ne
  · rintro ⟨hv, i, hi, j, hj, hij, e⟩
    exact ⟨⟨⟨i, hi⟩, ⟨j, hj⟩, by simp [hij, e]⟩, hv⟩

/-- What the call with a list does whose first entry is 0: the kernel with the width from the median, and the list keeps it. -/
theorem kernel_zero (h : Suits mul x c) {theta : Theta} (ht : theta.t0 = some 0) (hl : theta.isTuple = false) :
    (KTest.median (lowerDists x c) = none ∧ kernel mul x c theta = .ok (none, { theta with t0 := none })) ∨
    ∃ m, KTest.median (lowerDists x c) = some m ∧ 0 < m ∧ ∃ K, kernel mul x c theta = .ok (some (K, 1 / (2 / m)), { theta with t0 := some (2 / m) }) ∧
      K.r = x.r ∧ K.c = c.r ∧ ∀ i < x.r, ∀ j < c.r, K.f i j = theta.t1 * Real.exp (-(rowDist x c i j / m)) := by
  obtain ⟨n2, e, e1, e2, e3⟩ := h.dist
  have hlow := lower_eq e1 e2 e3
  cases hm : KTest.median (lowerDists x c) with
  | none =>
    left
    refine ⟨rfl, ?_⟩
    simp [kernel, e, ht, hl, hlow, hm, bind, Except.bind, pure, Except.pure]
  | some m =>
    right
    have hp := KTest.median_pos (fun v hv => (mem_lowerDists.1 hv).1) hm
    refine ⟨m, rfl, hp, ⟨n2.r, n2.c, fun i j => theta.t1 * Real.exp (-n2.f i j * (2 / m / 2))⟩, ?_, e1, e2, fun i hi j hj => ?_⟩
    · simp [kernel, e, ht, hl, hlow, hm, bind, Except.bind, pure, Except.pure]
    · simp only [e3 i hi j hj]
      congr 2
      field_simp

/-- **C174, the median width.** With a list whose first entry is 0 the function uses, and leaves in the list, twice one over the median of the positive
squared distances on and below the diagonal. It is NaN just if there are none. -/
theorem c174_median (h : Suits mul x c) {theta : Theta} (ht : theta.t0 = some 0) (hl : theta.isTuple = false) :
    ((∃ theta', kernel mul x c theta = .ok (none, theta')) ↔ ∀ i < x.r, ∀ j < c.r, j ≤ i → ∀ k < x.c, x.f i k = c.f j k) ∧
    ∀ K b theta', kernel mul x c theta = .ok (some (K, b), theta') → ∃ t, theta'.t0 = some t ∧ 0 < t ∧ b = 1 / t ∧ KTest.median (lowerDists x c) = some (2 / t) ∧
      kernel mul x c theta' = .ok (some (K, b), theta') := by
  have hz : KTest.median (lowerDists x c) = none ↔ ∀ i < x.r, ∀ j < c.r, j ≤ i → ∀ k < x.c, x.f i k = c.f j k := by
    rw [KTest.median_none, List.eq_nil_iff_forall_not_mem]
    constructor
    · intro hn i hi j hj hij k hk
      by_contra hne
      refine hn (rowDist x c i j) (mem_lowerDists.2 ⟨?_, i, hi, j, hj, hij, rfl⟩)
      exact Finset.sum_pos' (fun _ _ => sq_nonneg _) ⟨k, Finset.mem_range.2 hk, by have := sub_ne_zero.2 hne; positivity⟩
    · intro hn v hv
      obtain ⟨hp, i, hi, j, hj, hij, e⟩ := mem_lowerDists.1 hv
      refine hp.ne' (e.trans (Finset.sum_eq_zero fun k hk => ?_))
      rw [hn i hi j hj hij k (Finset.mem_range.1 hk)]
      ring
  rcases kernel_zero h ht hl with ⟨hm, e⟩ | ⟨m, hm, hp, K, e, e1, e2, e3⟩
  · refine ⟨⟨fun _ => hz.1 hm, fun _ => ⟨_, e⟩⟩, fun K b theta' e' => ?_⟩
    rw [e] at e'
    cases e'
  · refine ⟨⟨fun ⟨_, e'⟩ => ?_, fun hn => ?_⟩, fun K' b theta' e' => ?_⟩
    · rw [e] at e'
      cases e'
    · rw [hz.2 hn] at hm
      cases hm
    · have ee := e
      rw [e] at e'
      cases e'
      have hp2 : 0 < 2 / m := by positivity
      refine ⟨2 / m, rfl, hp2, rfl, by rw [hm]; congr 1; field_simp, ?_⟩
      obtain ⟨n2, d, _⟩ := h.dist
      have k1 : kernel mul x c theta = .ok (some (⟨n2.r, n2.c, fun i j => theta.t1 * Real.exp (-n2.f i j * (2 / m / 2))⟩, 1 / (2 / m)), { theta with t0 := some (2 / m) }) := by
        have hlow : KTest.median (lower n2) = some m := by
          obtain ⟨n2', d', q1, q2, q3⟩ := h.dist
          rw [d] at d'
          cases d'
          rw [lower_eq q1 q2 q3, hm]
        simp [kernel, d, ht, hl, hlow, bind, Except.bind, pure, Except.pure]
      have k2 : kernel mul x c { theta with t0 := some (2 / m) } =
          .ok (some (⟨n2.r, n2.c, fun i j => theta.t1 * Real.exp (-n2.f i j * (2 / m / 2))⟩, 1 / (2 / m)), { theta with t0 := some (2 / m) }) := by
        simp [kernel, d, hp.ne', bind, Except.bind, pure, Except.pure]
      rw [k2, ← k1, ee]

/-- The data in other units, and shifted: `a` times every entry plus `b k` in column `k`. -/
def affine (a : ℝ) (b : ℕ → ℝ) (x : Arr) : Arr := ⟨x.r, x.c, fun i k => a * x.f i k + b k⟩

theorem rowDist_affine (a : ℝ) (b : ℕ → ℝ) (i j : ℕ) : rowDist (affine a b x) (affine a b c) i j = a ^ 2 * rowDist x c i j := by
  unfold rowDist affine
  rw [Finset.mul_sum]
  exact Finset.sum_congr rfl fun k _ => by ring

theorem lowerDists_affine {a : ℝ} (ha : a ≠ 0) (b : ℕ → ℝ) : lowerDists (affine a b x) (affine a b c) = (lowerDists x c).map (a ^ 2 * ·) := by
  have hp : 0 < a ^ 2 := by positivity
  unfold lowerDists
  rw [show ((fun v : ℝ => decide (0 < v)) : ℝ → Bool) = (fun v : ℝ => decide (0 < v)) ∘ (a ^ 2 * ·) from funext fun v => by
    simp only [Function.comp]
    congr 1
    exact propext (mul_pos_iff_of_pos_left hp).symm]
  rw [← List.filter_map]
  rw [show ((fun v : ℝ => decide (0 < v)) ∘ (a ^ 2 * ·) : ℝ → Bool) = (fun v : ℝ => decide (0 < v)) from funext fun v => by
    simp only [Function.comp]
    congr 1
    exact propext (mul_pos_iff_of_pos_left hp)]
  congr 1
  rw [List.map_flatMap]
  refine List.flatMap_congr fun i _ => ?_
  rw [List.map_map]
  refine List.map_congr_left fun j _ => ?_
  simp only [Function.comp]
  rw [rowDist_affine]
  split_ifs <;> simp

theorem Suits.affine (h : Suits mul x c) (a : ℝ) (b : ℕ → ℝ) : Suits mul (affine a b x) (affine a b c) := h

/-- **C174, units.** With the median width the kernel does not depend on the unit and the origin of the data. -/
theorem c174_units (h : Suits mul x c) {theta theta' : Theta} (ht : theta.t0 = some 0) (hl : theta.isTuple = false) {K : Arr} {b : ℝ}
    (hk : kernel mul x c theta = .ok (some (K, b), theta')) {a : ℝ} (ha : a ≠ 0) (s : ℕ → ℝ) :
    ∃ K' theta'', kernel mul (affine a s x) (affine a s c) theta = .ok (some (K', a ^ 2 * b), theta'') ∧ K'.r = K.r ∧ K'.c = K.c ∧
      ∀ i < x.r, ∀ j < c.r, K'.f i j = K.f i j := by
  have hp : 0 < a ^ 2 := by positivity
  rcases kernel_zero h ht hl with ⟨_, e⟩ | ⟨m, hm, hm0, K1, e, e1, e2, e3⟩
  · rw [e] at hk
    cases hk
  rw [e] at hk
  cases hk
  have hm' : KTest.median (lowerDists (affine a s x) (affine a s c)) = some (a ^ 2 * m) := by
    rw [lowerDists_affine ha, KTest.median_scale _ hp, hm]
    rfl
  rcases kernel_zero (h.affine a s) ht hl with ⟨q, _⟩ | ⟨m', q, _, K', e', q1, q2, q3⟩
  · rw [hm'] at q
    cases q
  · rw [hm'] at q
    cases q
    refine ⟨K', { theta with t0 := some (2 / (a ^ 2 * m)) }, ?_, q1.trans e1.symm, q2.trans e2.symm, fun i hi j hj => ?_⟩
    · rw [e']
      congr 4
      field_simp
    · rw [q3 i hi j hj, e3 i hi j hj, rowDist_affine]
      congr 3
      field_simp

section rows
variable {n : ℕ}

/-- The positive entries on and below the diagonal. -/
noncomputable def low (D : Fin n → Fin n → ℝ) : List ℝ :=
  ((List.finRange n).flatMap fun i : Fin n => (List.finRange n).map fun j : Fin n => if (j : ℕ) ≤ i then D i j else 0).filter fun v => decide (0 < v)

theorem count_low (D : Fin n → Fin n → ℝ) {a : ℝ} (ha : 0 < a) : (low D).count a = ∑ i : Fin n, ∑ j : Fin n, if j ≤ i ∧ D i j = a then 1 else 0 := by
  unfold low
  rw [List.count_filter (by simpa using ha), List.count_flatMap, Fin.sum_univ_def]
  congr 1
  refine List.map_congr_left fun i _ => ?_
  rw [Function.comp, KTest.count_map, Fin.sum_univ_def]
  congr 1
  refine List.map_congr_left fun j _ => ?_
  by_cases h : j ≤ i
  · have h' : (j : ℕ) ≤ i := h
    simp [h, h']
  · have h' : ¬ (j : ℕ) ≤ i := h
    simp [h, h', ha.ne]

theorem low_upper {D : Fin n → Fin n → ℝ} (hD : ∀ i j, D i j = D j i) (h0 : ∀ i, D i i = 0) : (low D).Perm (KTest.upper D) := by
  rw [List.perm_iff_count]
  intro a
  by_cases ha : 0 < a
  · rw [count_low D ha, KTest.count_upper D ha, Finset.sum_comm]
    refine Finset.sum_congr rfl fun i _ => Finset.sum_congr rfl fun j _ => ?_
    rcases eq_or_ne i j with rfl | q
    · simp [h0, ha.ne]
    · simp [lt_iff_le_and_ne, q, hD i j]
  · rw [List.count_eq_zero_of_not_mem fun h => ha (by simpa using (List.mem_filter.1 h).2),
      List.count_eq_zero_of_not_mem fun h => ha (by simpa using (List.mem_filter.1 h).2)]

end rows

/-- The rows of `x` in another order. -/
def reorder (x : Arr) (σ : Equiv.Perm (Fin x.r)) : Arr := ⟨x.r, x.c, fun i k => if h : i < x.r then x.f (σ ⟨i, h⟩) k else 0⟩

theorem rowDist_reorder (σ : Equiv.Perm (Fin x.r)) (i j : Fin x.r) : rowDist (reorder x σ) (reorder x σ) i j = rowDist x x (σ i) (σ j) := by
  unfold rowDist reorder
  simp

theorem rowDist_symm (x : Arr) (i j : ℕ) : rowDist x x i j = rowDist x x j i := Finset.sum_congr rfl fun _ _ => by ring

theorem rowDist_self (x : Arr) (i : ℕ) : rowDist x x i i = 0 := Finset.sum_eq_zero fun _ _ => by ring

theorem median_reorder (σ : Equiv.Perm (Fin x.r)) : KTest.median (lowerDists (reorder x σ) (reorder x σ)) = KTest.median (lowerDists x x) := by
  have h1 := low_upper (D := fun i j : Fin x.r => rowDist x x i j) (fun i j => rowDist_symm x i j) (fun i => rowDist_self x i)
  have h2 := low_upper (D := fun i j : Fin x.r => rowDist (reorder x σ) (reorder x σ) i j) (fun i j => rowDist_symm _ i j) (fun i => rowDist_self _ i)
  have h3 := KTest.upper_perm (fun i j : Fin x.r => rowDist x x i j) (fun i j => rowDist_symm x i j) σ
  have e : (fun i j : Fin x.r => rowDist (reorder x σ) (reorder x σ) i j) = fun i j => rowDist x x (σ i) (σ j) := by
    funext i j
    exact rowDist_reorder σ i j
  rw [e] at h2
  have h4 : (lowerDists (reorder x σ) (reorder x σ)).Perm (lowerDists x x) := by
    have e1 : lowerDists (reorder x σ) (reorder x σ) = low fun i j : Fin x.r => rowDist x x (σ i) (σ j) := by
      rw [← e]; rfl
    rw [e1]
    exact (h2.trans h3).trans h1.symm
  exact KTest.median_perm h4

/-- **C174, the order of the rows.** The kernel of a sample with itself goes along with the order of its rows. -/
theorem c174_rows (h : Suits mul x x) {theta theta' : Theta} (ht : theta.t0 = some 0) (hl : theta.isTuple = false) {K : Arr} {b : ℝ}
    (hk : kernel mul x x theta = .ok (some (K, b), theta')) (σ : Equiv.Perm (Fin x.r)) :
    ∃ K', kernel mul (reorder x σ) (reorder x σ) theta = .ok (some (K', b), theta') ∧ ∀ i j : Fin x.r, K'.f i j = K.f (σ i) (σ j) := by
  rcases kernel_zero h ht hl with ⟨_, e⟩ | ⟨m, hm, hm0, K1, e, e1, e2, e3⟩
  · rw [e] at hk
    cases hk
  rw [e] at hk
  cases hk
  have h' : Suits mul (reorder x σ) (reorder x σ) := h
  rcases kernel_zero h' ht hl with ⟨q, _⟩ | ⟨m', q, _, K', e', q1, q2, q3⟩
  · rw [median_reorder, hm] at q
    cases q
  · rw [median_reorder, hm] at q
    cases q
    refine ⟨K', e', fun i j => ?_⟩
    rw [q3 i i.2 j j.2, e3 _ (σ i).2 _ (σ j).2, rowDist_reorder]

theorem median_one (v : ℝ) : KTest.median [v] = some v := by simp [KTest.median]

/-- One column with the given entries. -/
def col (l : List ℝ) : Arr := ⟨l.length, 1, fun i _ => l.getD i 0⟩

theorem col_suits (l l' : List ℝ) (hmul : mul = matmul ∨ mul = ewise (· * ·)) : Suits mul (col l) (col l') := ⟨rfl, hmul.imp id fun h => ⟨h, rfl⟩⟩

theorem rowDist_col (l l' : List ℝ) (i j : ℕ) : rowDist (col l) (col l') i j = (l.getD i 0 - l'.getD j 0) ^ 2 := by
  simp [rowDist, col]

/-- **C174, the order of the rows of the second sample.** One would expect the kernel of two samples to go along with the order of the rows of the second
one. It does not: the median is taken of the entries on and below the diagonal only. -/
theorem c174_rows_false (hmul : mul = matmul ∨ mul = ewise (· * ·)) : ∃ K K' b b' th th', kernel mul (col [0]) (col [1, 2]) ⟨false, some 0, 1⟩ = .ok (some (K, b), th) ∧
    kernel mul (col [0]) (col [2, 1]) ⟨false, some 0, 1⟩ = .ok (some (K', b'), th') ∧ K.f 0 0 ≠ K'.f 0 1 := by
  have l1 : lowerDists (col [0]) (col [1, 2]) = [1] := by
    unfold lowerDists
    simp only [rowDist_col]
    simp [col, List.finRange_succ]
  have l2 : lowerDists (col [0]) (col [2, 1]) = [4] := by
    unfold lowerDists
    simp only [rowDist_col]
    simp [col, List.finRange_succ]
    norm_num
  rcases kernel_zero (col_suits [0] [1, 2] hmul) (theta := ⟨false, some 0, 1⟩) rfl rfl with ⟨q, _⟩ | ⟨m, q, _, K, e, _, _, e3⟩
  · rw [l1, median_one] at q
    cases q
  rcases kernel_zero (col_suits [0] [2, 1] hmul) (theta := ⟨false, some 0, 1⟩) rfl rfl with ⟨q', _⟩ | ⟨m', q', _, K', e', _, _, e3'⟩
  · rw [l2, median_one] at q'
    cases q'
  rw [l1, median_one] at q
  rw [l2, median_one] at q'
  cases q
  cases q'
  refine ⟨K, K', _, _, _, _, e, e', ?_⟩
  rw [e3 0 (by decide) 0 (by decide), e3' 0 (by decide) 1 (by decide), rowDist_col, rowDist_col]
  intro hh
  simp at hh

/-- **C174, the list is changed.** One would expect a second call with the same list to choose its width for its own data. It uses the width of the first
call: here the entry is another one than that of a call with a new list. -/
theorem c174_stale_false (hmul : mul = matmul ∨ mul = ewise (· * ·)) : ∃ K K1 K2 b b1 b2 th th1 th2,
    kernel mul (col [0, 1]) (col [0, 1]) ⟨false, some 0, 1⟩ = .ok (some (K, b), th) ∧
    kernel mul (col [0, 2]) (col [0, 2]) th = .ok (some (K1, b1), th1) ∧
    kernel mul (col [0, 2]) (col [0, 2]) ⟨false, some 0, 1⟩ = .ok (some (K2, b2), th2) ∧ K1.f 1 0 ≠ K2.f 1 0 := by
  have l1 : lowerDists (col [0, 1]) (col [0, 1]) = [1] := by
    unfold lowerDists
    simp only [rowDist_col]
    simp [col, List.finRange_succ]
  have l2 : lowerDists (col [0, 2]) (col [0, 2]) = [4] := by
    unfold lowerDists
    simp only [rowDist_col]
    simp [col, List.finRange_succ]
    norm_num
  rcases kernel_zero (col_suits [0, 1] [0, 1] hmul) (theta := ⟨false, some 0, 1⟩) rfl rfl with ⟨q, _⟩ | ⟨m, q, _, K, e, _, _, e3⟩
  · rw [l1, median_one] at q
    cases q
  rcases kernel_zero (col_suits [0, 2] [0, 2] hmul) (theta := ⟨false, some 0, 1⟩) rfl rfl with ⟨q', _⟩ | ⟨m', q', _, K2, e', _, _, e3'⟩
  · rw [l2, median_one] at q'
    cases q'
  rw [l1, median_one] at q
  rw [l2, median_one] at q'
  cases q
  cases q'
  obtain ⟨K1, f, _, _, f3⟩ := c174_given (col_suits [0, 2] [0, 2] hmul) (theta := ⟨false, some (2 / 1), 1⟩) rfl (by norm_num)
  refine ⟨K, K1, K2, _, _, _, _, _, _, e, f, e', ?_⟩
  rw [f3 1 (by decide) 0 (by decide), e3' 1 (by decide) 0 (by decide), rowDist_col]
  intro hh
  simp at hh
  norm_num at hh

/-- **C174, positive semidefinite.** The kernel of a sample with itself is positive semidefinite if `theta[1]` is not negative and `theta[0]` neither. -/
theorem c174_psd (h : Suits mul x x) {theta theta' : Theta} (h1 : 0 ≤ theta.t1) (h0 : ∀ t, theta.t0 = some t → 0 ≤ t) (hl : theta.isTuple = false) {K : Arr} {b : ℝ}
    (hk : kernel mul x x theta = .ok (some (K, b), theta')) : (Matrix.of fun i j : Fin x.r => K.f i j).PosSemidef := by
  have key : ∀ t : ℝ, 0 ≤ t → (∀ i < x.r, ∀ j < x.r, K.f i j = theta.t1 * Real.exp (-(t / 2 * rowDist x x i j))) →
      (Matrix.of fun i j : Fin x.r => K.f i j).PosSemidef := fun t ht hK => by
    have := (KTest.gaussianWidth_psd ht (fun (i : Fin x.r) (k : Fin x.c) => x.f i k)).smul h1
    convert this using 1
    ext i j
    rw [Matrix.of_apply, hK i i.2 j j.2, Matrix.smul_apply, smul_eq_mul]
    unfold KTest.gaussianWidth KTest.sqDist rowDist
    rw [Finset.sum_range]
    congr 2
    ring
  cases hq : theta.t0 with
  | none =>
    obtain ⟨n2, d, _⟩ := h.dist
    simp [kernel, d, hq, bind, Except.bind, pure, Except.pure] at hk
  | some t =>
    by_cases hz : t = 0
    · subst hz
      rcases kernel_zero h hq hl with ⟨_, e⟩ | ⟨m, _, hm, K1, e, _, _, e3⟩
      · rw [e] at hk
        cases hk
      · rw [e] at hk
        cases hk
        refine key (2 / m) (by positivity) fun i hi j hj => ?_
        rw [e3 i hi j hj]
        congr 3
        field_simp
    · obtain ⟨K1, e, _, _, e3⟩ := c174_given h hq hz
      rw [e] at hk
      cases hk
      exact key t (h0 t hq) e3

section poly
open Cdmir.Cached

/-- The entry at `i`, `j` of a list of rows. -/
noncomputable def entry (K : Rows ℝ) (i j : ℕ) : ℝ := (K.getD i []).getD j 0

theorem zipWith_sum : ∀ (a b : List ℝ), a.length = b.length → (List.zipWith (· * ·) a b).sum = ∑ k ∈ Finset.range a.length, a.getD k 0 * b.getD k 0
  | [], [], _ => by simp
  | x :: a, y :: b, h => by
    rw [List.zipWith_cons_cons, List.sum_cons, zipWith_sum a b (by simpa using h), List.length_cons, Finset.sum_range_succ']
    simp [add_comm]

theorem linear_entry {d : ℕ} {xs ys : Rows ℝ} (hx : ∀ a ∈ xs, a.length = d) (hy : ∀ a ∈ ys, a.length = d) {i j : ℕ} (hi : i < xs.length) (hj : j < ys.length) :
    entry (linearKernel (xs, ys)) i j = ∑ k ∈ Finset.range d, entry xs i k * entry ys j k := by
  have h1 := hx _ (List.getElem_mem hi)
  have h2 := hy _ (List.getElem_mem hj)
  have := zipWith_sum xs[i] ys[j] (h1.trans h2.symm)
  rw [h1] at this
  simp only [List.getD_eq_getElem?_getD] at this
  simp [entry, linearKernel, hi, hj, this]

/-- **C174, the polynomial kernel.** The entry at `i`, `j` is the power of the constant plus the scalar product of the rows; with degree 1 and constant 0 it is
the linear kernel. -/
theorem c174_poly {d : ℕ} {xs ys : Rows ℝ} (hx : ∀ a ∈ xs, a.length = d) (hy : ∀ a ∈ ys, a.length = d) (deg : ℕ) (const : ℝ) :
    (∀ i < xs.length, ∀ j < ys.length, entry (polyKernel deg const (xs, ys)) i j = (const + ∑ k ∈ Finset.range d, entry xs i k * entry ys j k) ^ deg) ∧
    polyKernel 1 0 (xs, ys) = linearKernel (xs, ys) := by
  refine ⟨fun i hi j hj => ?_, by simp [polyKernel]⟩
  rw [← linear_entry hx hy hi hj]
  simp [entry, polyKernel, linearKernel, hi, hj]

/-- **C174, the polynomial kernel is positive semidefinite** if the constant is not negative, for every degree. -/
theorem c174_poly_psd {d : ℕ} {xs : Rows ℝ} (hx : ∀ a ∈ xs, a.length = d) (deg : ℕ) {const : ℝ} (hc : 0 ≤ const) :
    (Matrix.of fun i j : Fin xs.length => entry (polyKernel deg const (xs, xs)) i j).PosSemidef := by
  set A : Matrix (Fin xs.length) (Fin d) ℝ := Matrix.of fun i k => entry xs i k with hA
  have hG : (A * A.conjTranspose).PosSemidef := Matrix.posSemidef_self_mul_conjTranspose A
  set B : Matrix (Fin xs.length) (Fin 1) ℝ := Matrix.of fun _ _ => 1 with hB
  have hO : (B * B.conjTranspose).PosSemidef := Matrix.posSemidef_self_mul_conjTranspose B
  have hS := (hO.smul hc).add hG
  have hP : ∀ q : ℕ, (Matrix.of fun i j : Fin xs.length => ((const • (B * B.conjTranspose) + A * A.conjTranspose) i j) ^ q).PosSemidef := by
    intro q
    induction q with
    | zero =>
      convert hO using 1
      ext i j
      simp [hB, Matrix.mul_apply]
    | succ q ih =>
      have e : (Matrix.of fun i j : Fin xs.length => ((const • (B * B.conjTranspose) + A * A.conjTranspose) i j) ^ (q + 1)) =
          Matrix.hadamard (Matrix.of fun i j : Fin xs.length => ((const • (B * B.conjTranspose) + A * A.conjTranspose) i j) ^ q)
            (const • (B * B.conjTranspose) + A * A.conjTranspose) := by
        ext i j
        rw [Matrix.hadamard_apply, Matrix.of_apply, Matrix.of_apply, pow_succ]
      rw [e]
      exact ih.hadamard hS
  convert hP deg using 1
  ext i j
  rw [Matrix.of_apply, Matrix.of_apply, (c174_poly hx hx deg const).1 i i.2 j j.2]
  congr 1
  simp [hA, hB, Matrix.mul_apply, Finset.sum_range]

/-- **C174, a negative constant.** One would expect every polynomial kernel to be positive semidefinite. With a negative constant and an odd degree the kernel
of the row 0 is negative. -/
theorem c174_poly_false {const : ℝ} (hc : const < 0) {deg : ℕ} (hd : Odd deg) :
    ¬ (Matrix.of fun i j : Fin 1 => entry (polyKernel deg const ([[0]], [[0]])) i j).PosSemidef := by
  intro h
  have h0 := h.diag_nonneg (i := 0)
  rw [Matrix.of_apply, (c174_poly (d := 1) (xs := [[0]]) (ys := [[0]]) (by simp) (by simp) deg const).1 _ (by simp) _ (by simp)] at h0
  simp [entry] at h0
  exact absurd h0 (not_le.2 (hd.pow_neg hc))

end poly

section examples

example := c174_dist ⟨3, 2, fun i k => i * k + 1⟩ ⟨2, 2, fun i k => i + k⟩
example := c174_column (x := col [0, 1, 5]) (c := col [2, 3]) rfl rfl
example := c174_plain (x := ⟨5, 2, fun i k => i + k⟩) (c := ⟨5, 2, fun i k => i + k⟩) rfl le_rfl (Or.inl ⟨by decide, by decide⟩)

/-- Three rows of two columns. -/
def exRows : Arr := ⟨3, 2, fun i k => i * (k + 1)⟩

/-- The first and the last row change places. -/
def exPerm : Equiv.Perm (Fin exRows.r) := Equiv.swap (⟨0, by decide⟩ : Fin 3) ⟨2, by decide⟩

theorem exRows_suits : Suits matmul exRows exRows := ⟨rfl, Or.inl rfl⟩

example := c174_given exRows_suits (theta := ⟨true, some 3, 1⟩) rfl (by norm_num)
example := c174_tuple exRows_suits (theta := ⟨true, some 0, 1⟩) rfl rfl

theorem exRows_some : ∃ K b th, kernel matmul exRows exRows ⟨false, some 0, 1⟩ = .ok (some (K, b), th) := by
  rcases kernel_zero exRows_suits (theta := ⟨false, some 0, 1⟩) rfl rfl with ⟨_, e⟩ | ⟨_, _, _, K, e, _⟩
  · have := (c174_median exRows_suits (theta := ⟨false, some 0, 1⟩) rfl rfl).1.1 ⟨_, e⟩ 1 (by decide) 0 (by decide) (by decide) 0 (by decide)
    norm_num [exRows] at this
  · exact ⟨K, _, _, e⟩

example : ∃ K b th t, kernel matmul exRows exRows ⟨false, some 0, 1⟩ = .ok (some (K, b), th) ∧ th.t0 = some t ∧ 0 < t := by
  obtain ⟨K, b, th, e⟩ := exRows_some
  obtain ⟨t, h1, h2, _⟩ := (c174_median exRows_suits (theta := ⟨false, some 0, 1⟩) rfl rfl).2 K b th e
  exact ⟨K, b, th, t, e, h1, h2⟩

example : ∃ K b th K' th', kernel matmul exRows exRows ⟨false, some 0, 1⟩ = .ok (some (K, b), th) ∧
    kernel matmul (affine 100 (fun _ => 7) exRows) (affine 100 (fun _ => 7) exRows) ⟨false, some 0, 1⟩ = .ok (some (K', 100 ^ 2 * b), th') := by
  obtain ⟨K, b, th, e⟩ := exRows_some
  obtain ⟨K', th', e', _⟩ := c174_units exRows_suits rfl rfl e (a := 100) (by norm_num) (fun _ => 7)
  exact ⟨K, b, th, K', th', e, e'⟩

example : ∃ K b th K', kernel matmul exRows exRows ⟨false, some 0, 1⟩ = .ok (some (K, b), th) ∧
    kernel matmul (reorder exRows exPerm) (reorder exRows exPerm) ⟨false, some 0, 1⟩ = .ok (some (K', b), th) ∧
    (Matrix.of fun i j : Fin 3 => K.f i j).PosSemidef := by
  obtain ⟨K, b, th, e⟩ := exRows_some
  obtain ⟨K', e', _⟩ := c174_rows exRows_suits rfl rfl e exPerm
  exact ⟨K, b, th, K', e, e', c174_psd exRows_suits zero_le_one (fun t h => by cases h; exact le_rfl) rfl e⟩

example := c174_rows_false (Or.inl rfl)
example := c174_stale_false (Or.inr rfl)
example := c174_poly (d := 2) (xs := [[1, 2], [3, 4]]) (ys := [[5, 6]]) (by simp) (by simp) 3 (1 / 2)
example := c174_poly_psd (d := 2) (xs := [[1, 2], [3, 4], [0, 1]]) (by simp) 3 (const := 1 / 2) (by norm_num)
example := c174_poly_false (const := -1) (by norm_num) (deg := 3) (by decide)

end examples

end Cdmir.Rbf
