import Verif.Model.SqDist
import Verif.Props.LinAlg
import Verif.Props.Gpr

/-! C176: `sq_dist` with all its arguments, the test set modes of the covariance functions, and `eigdec` with `evals_only`. -/

namespace Cdmir.SqDist
open BigOperators Rbf Gpr

theorem bpos_lt {n i : ℕ} (h : i < n) : bpos n i = i := by
  unfold bpos
  split <;> omega

theorem ewise_eq (op : ℝ → ℝ → ℝ) {a b : Arr} (hr : a.r = b.r) (hc : a.c = b.c) :
    ∃ r, ewise op a b = .ok r ∧ r.r = a.r ∧ r.c = a.c ∧ ∀ i < a.r, ∀ j < a.c, r.f i j = op (a.f i j) (b.f i j) := by
  refine ⟨⟨a.r, a.c, fun i j => op (a.f (bpos a.r i) (bpos a.c j)) (b.f (bpos b.r i) (bpos b.c j))⟩, by unfold ewise bdim; rw [if_pos hr, if_pos hc]; rfl, rfl, rfl,
    fun i hi j hj => ?_⟩
  dsimp only
  rw [bpos_lt hi, bpos_lt hj, bpos_lt (hr ▸ hi), bpos_lt (hc ▸ hj)]

theorem diffs_matrix (a b : Arr) (d : ℕ) : ∃ r, diffs .matrix a b d = .ok r ∧ r.r = a.c ∧ r.c = b.c ∧ ∀ i < a.c, ∀ j < b.c, r.f i j = (b.f d j - a.f d i) ^ 2 := by
  obtain ⟨t, ht, h1, h2, h3⟩ := ewise_eq (· - ·) (a := tileB a.c b d) (b := tileA .matrix b.c a d) rfl rfl
  obtain ⟨u, hu, h4, h5, h6⟩ := ewise_eq (· * ·) (a := t) (b := t) rfl rfl
  refine ⟨u, by unfold diffs; rw [ht]; exact hu, h4.trans h1, h5.trans h2, fun i hi j hj => ?_⟩
  rw [h6 i (h1 ▸ hi) j (h2 ▸ hj), h3 i hi j hj]
  simp only [tileB, tileA]
  ring

/-- A fold in which every step succeeds, with an invariant. -/
theorem foldlM_range {A : Type} {f : A → ℕ → Except Err A} {I : ℕ → A → Prop} {n : ℕ} {x : A} (h0 : I 0 x)
    (hs : ∀ d < n, ∀ y, I d y → ∃ z, f y d = .ok z ∧ I (d + 1) z) : ∃ z, (List.range n).foldlM f x = .ok z ∧ I n z := by
  induction n with
  | zero => exact ⟨x, rfl, h0⟩
  | succ n ih =>
    obtain ⟨z, hz, hi⟩ := ih fun d hd => hs d (by omega)
    obtain ⟨w, hw, hi'⟩ := hs n (by omega) z hi
    refine ⟨w, ?_, hi'⟩
    rw [List.range_succ, List.foldlM_append, hz]
    simp only [bind, Except.bind, List.foldlM_cons, List.foldlM_nil, hw]
    rfl

/-- C176. For `np.matrix` arguments with as many rows `sq_dist` returns the squared distances of the columns. -/
theorem c176_dist {a b : Arr} (h : a.r = b.r) (hb : b.r ≠ 0) :
    ∃ C, sqDist .matrix a (some b) none = .ok C ∧ C.r = a.c ∧ C.c = b.c ∧ ∀ i < a.c, ∀ j < b.c, C.f i j = ∑ d ∈ Finset.range a.r, (b.f d j - a.f d i) ^ 2 := by
  have hs : second a (some b) = b := if_neg hb
  unfold sqDist
  rw [hs]
  simp only [← h, ne_eq, not_true_eq_false, if_false]
  refine foldlM_range (I := fun D (C : Arr) => C.r = a.c ∧ C.c = b.c ∧ ∀ i < a.c, ∀ j < b.c, C.f i j = ∑ d ∈ Finset.range D, (b.f d j - a.f d i) ^ 2)
    ⟨rfl, rfl, fun i _ j _ => by simp⟩ fun d _ C hC => ?_
  obtain ⟨r, hr, h1, h2, h3⟩ := diffs_matrix a b d
  obtain ⟨u, hu, h4, h5, h6⟩ := ewise_eq (· + ·) (a := C) (b := r) (hC.1.trans h1.symm) (hC.2.1.trans h2.symm)
  refine ⟨u, by rw [hr]; exact hu, h4.trans hC.1, h5.trans hC.2.1, fun i hi j hj => ?_⟩
  rw [h6 i (hC.1 ▸ hi) j (hC.2.1 ▸ hj), hC.2.2 i hi j hj, h3 i hi j hj, Finset.sum_range_succ]

/-- C176. With one argument, or a second one without rows, the distances are those within the first. -/
theorem c176_self (a b : Arr) (hb : b.r = 0) (Q : Option Arr) (k : Kind) :
    sqDist k a none Q = sqDist k a (some a) Q ∧ sqDist k a (some b) Q = sqDist k a (some a) Q := by
  have h : second a (some a) = a := ite_self _
  constructor
  · unfold sqDist
    rw [h]
    rfl
  · unfold sqDist
    rw [h]
    have : second a (some b) = a := if_pos hb
    rw [this]

/-- C176. Different numbers of rows, or a third argument of another shape, raise an exception. -/
theorem c176_shape {a b : Arr} (hb : b.r ≠ 0) (k : Kind) :
    (b.r ≠ a.r → ∀ Q, sqDist k a (some b) Q = .error .exception) ∧ (∀ Q : Arr, (Q.r ≠ a.c ∨ Q.c ≠ b.c) → sqDist k a (some b) (some Q) = .error .exception) := by
  have hs : second a (some b) = b := if_neg hb
  refine ⟨fun h Q => ?_, fun Q hQ => ?_⟩
  · unfold sqDist
    rw [hs]
    exact if_pos h
  · unfold sqDist
    rw [hs]
    dsimp only
    split
    · rfl
    · rw [if_neg]
      rw [Prod.mk.injEq]
      rcases hQ with h | h
      · exact fun q => h q.1.symm
      · exact fun q => h q.2.symm

/-- C176. With a third argument `sq_dist` returns a column: for each row the sum of the squared differences, weighted by the third argument. -/
theorem c176_weights {a b Q : Arr} (h : a.r = b.r) (hb : b.r ≠ 0) (hr : Q.r = a.c) (hc : Q.c = b.c) :
    ∃ C, sqDist .matrix a (some b) (some Q) = .ok C ∧ C.r = a.r ∧ C.c = 1 ∧
      ∀ d < a.r, C.f d 0 = ∑ i ∈ Finset.range a.c, ∑ j ∈ Finset.range b.c, (b.f d j - a.f d i) ^ 2 * Q.f i j := by
  have hs : second a (some b) = b := if_neg hb
  unfold sqDist
  rw [hs]
  simp only [← h, ne_eq, not_true_eq_false, if_false, hr, hc, if_true]
  refine foldlM_range (I := fun D (C : Arr) => C.r = a.r ∧ C.c = 1 ∧
    ∀ d < D, C.f d 0 = ∑ i ∈ Finset.range a.c, ∑ j ∈ Finset.range b.c, (b.f d j - a.f d i) ^ 2 * Q.f i j) ⟨rfl, rfl, fun d hd => absurd hd (by omega)⟩ fun D _ C hC => ?_
  obtain ⟨r, hr', h1, h2, h3⟩ := diffs_matrix a b D
  obtain ⟨u, hu, h4, h5, h6⟩ := ewise_eq (· * ·) (a := r) (b := Q) (h1.trans hr.symm) (h2.trans hc.symm)
  refine ⟨⟨a.r, 1, fun i j => if i = D then sumAll u else C.f i j⟩, by rw [hr']; simp only [bind, Except.bind, hu]; rfl, rfl, rfl, fun d hd => ?_⟩
  dsimp only
  split
  · next e =>
    subst e
    unfold sumAll
    rw [h4, h5, h1, h2]
    refine Finset.sum_congr rfl fun i hi => Finset.sum_congr rfl fun j hj => ?_
    rw [Finset.mem_range] at hi hj
    rw [h6 i (h1 ▸ hi) j (h2 ▸ hj), h3 i hi j hj]
  · exact hC.2.2 d (by omega)

/-- C176. Plain arrays with at least one row, at least two columns in each: the result is a `ValueError`. -/
theorem c176_array {a b : Arr} (h : a.r = b.r) (hb : b.r ≠ 0) (ha : 2 ≤ a.c) (hc : 2 ≤ b.c) : sqDist .array a (some b) none = .error .value := by
  have hs : second a (some b) = b := if_neg hb
  unfold sqDist
  rw [hs]
  simp only [← h, ne_eq, not_true_eq_false, if_false]
  have hd : diffs .array a b 0 = .error .value := by
    unfold diffs ewise bdim tileB tileA
    have q : b.c ≠ a.c * b.c := by nlinarith
    have q' : a.c * b.c ≠ 1 := by nlinarith
    simp only [if_neg q, if_neg q', if_neg (by omega : b.c ≠ 1), if_neg (by omega : a.c ≠ 1), if_true]
    rfl
  obtain ⟨n, hn⟩ : ∃ n, a.r = n + 1 := ⟨a.r - 1, by omega⟩
  rw [hn, List.range_succ_eq_map, List.foldlM_cons, hd]
  rfl

/-- C176, intended for plain arrays: an array of `n` rows and `m` columns. False: with one column in the second and two in the first the result has two columns. -/
theorem c176_array_false : ∃ (a b C : Arr), a.r = b.r ∧ a.c = 2 ∧ b.c = 1 ∧ sqDist .array a (some b) none = .ok C ∧ C.r = 2 ∧ C.c = 2 ∧
    ¬ (C.f 1 0 = (b.f 0 0 - a.f 0 1) ^ 2) := by
  refine ⟨⟨1, 2, fun _ j => if j = 0 then 1 else 2⟩, ⟨1, 1, fun _ _ => 0⟩, _, rfl, rfl, rfl, rfl, rfl, rfl, ?_⟩
  norm_num [bpos, tileB, tileA, second]

/-- C176. Plain arrays with one column in the first argument: the result is that of matrices. -/
theorem c176_column {a b : Arr} (h : a.r = b.r) (hb : b.r ≠ 0) (ha : a.c = 1) :
    ∃ C, sqDist .array a (some b) none = .ok C ∧ C.r = 1 ∧ C.c = b.c ∧ ∀ j < b.c, C.f 0 j = ∑ d ∈ Finset.range a.r, (b.f d j - a.f d 0) ^ 2 := by
  have hs : second a (some b) = b := if_neg hb
  unfold sqDist
  rw [hs]
  simp only [← h, ne_eq, not_true_eq_false, if_false]
  refine foldlM_range (I := fun D (C : Arr) => C.r = 1 ∧ C.c = b.c ∧ ∀ j < b.c, C.f 0 j = ∑ d ∈ Finset.range D, (b.f d j - a.f d 0) ^ 2)
    ⟨ha, rfl, fun j _ => by simp⟩ fun d _ C hC => ?_
  obtain ⟨t, ht, h1, h2, h3⟩ := ewise_eq (· - ·) (a := tileB a.c b d) (b := tileA .array b.c a d) ha (by simp [tileB, tileA, ha])
  obtain ⟨u, hu, h4, h5, h6⟩ := ewise_eq (· * ·) (a := t) (b := t) rfl rfl
  have h1' : t.r = 1 := h1.trans ha
  have h2' : t.c = b.c := h2
  obtain ⟨w, hw, h7, h8, h9⟩ := ewise_eq (· + ·) (a := C) (b := u) (by rw [hC.1, h4, h1']) (by rw [hC.2.1, h5, h2'])
  refine ⟨w, by unfold diffs; simp only [ht, bind, Except.bind, hu, hw], h7.trans hC.1, h8.trans hC.2.1, fun j hj => ?_⟩
  rw [h9 0 (by omega) j (by rw [hC.2.1]; exact hj), hC.2.2 j hj, h6 0 (by omega) j (by omega), h3 0 (by change 0 < a.c; omega) j hj, Finset.sum_range_succ]
  simp only [tileB, tileA, ha, Nat.mod_one]
  ring

variable {T D m : ℕ}

/-- C176, intended of gpr_multi_new with test inputs: means and variances. False: for all kinds of data, all sums of covariance functions and all parameters it raises, and
wherever the training mode succeeds what it raises is a `TypeError`. -/
theorem c176_predict_false (k : Kind) (cs : List CovF) (lt : List ℝ) (X : KTest.Data T D) (y : Matrix (Fin T) (Fin m) ℝ) :
    (∀ r, predict k cs lt X y ≠ .ok r) ∧ ∀ v, gpr k cs lt X y = .ok v → predict k cs lt X y = .error .type := by
  constructor
  · intro r h
    unfold predict at h
    split at h
    · cases h
    · split at h
      · cases h
      · split at h
        · cases h
        · cases h
  · intro v h
    unfold gpr at h
    unfold predict
    split at h
    · cases h
    · next h1 =>
      rw [if_neg h1]
      split at h
      · cases h
      · next K hK =>
        split at h
        · cases h
        · next hp =>
          rw [hK]
          dsimp only
          rw [if_neg hp]
          rfl

theorem fold_error {A B : Type} {f : A → B → Except Err A} {b : B} (hb : ∀ a r, f a b ≠ .ok r) : ∀ {l : List B}, b ∈ l → ∀ (a r : A), l.foldlM f a ≠ .ok r
  | c :: l, hm, a, r => by
    rw [List.foldlM_cons]
    intro h
    cases e : f a c with
    | error x => rw [e] at h; cases h
    | ok a' =>
      rw [e] at h
      rcases List.mem_cons.1 hm with rfl | hm
      · exact hb a a' e
      · exact fold_error hb hm a' r h

/-- C176. With the number of the test cases in place of the test cases: a sum with a squared exponential term raises, a single noise term gives its variance and
covariances zero. -/
theorem c176_tests (k : Kind) (cs : List CovF) (lt : List ℝ) (X : KTest.Data T D) (z : ℕ) :
    (CovF.seard ∈ cs → ∀ r, covSumT k cs lt X (.number z) ≠ .ok r) ∧ ∀ t, covSumT k [.noise] [t] X (.number z) = .ok (Real.exp (2 * t), 0) := by
  constructor
  · intro h r
    obtain ⟨i, hi, e⟩ := List.getElem_of_mem h
    have hm : (CovF.seard, i) ∈ cs.zipIdx := by
      rw [List.mem_zipIdx_iff_getElem?, List.getElem?_eq_getElem hi, e]
    refine fold_error (b := (CovF.seard, i)) (fun a r => ?_) hm _ _
    unfold covOneT
    cases covSEard k (pick (vVec D cs) lt i) X <;> simp [Except.bind, Except.map]
  · intro t
    have hp : pick (vVec D [.noise]) [t] 0 = [t] := by simp [pick, vVec, nPar]
    simp only [covSumT, List.zipIdx, List.foldlM_cons, List.foldlM_nil, covOneT, hp, Except.map, bind, Except.bind, pure, Except.pure, zero_add]

/-- C176. `eigdec` with `evals_only` raises for a wrong number, and otherwise returns the greatest eigenvalues in falling order: the values that `eigdec` returns beside
the vectors if more than a twenty-fifth of them is asked for. -/
theorem c176_eigvals {n : ℕ} {eig : LinAlg.Mat n → List (LinAlg.Pair n)} {eigs : LinAlg.Mat n → Nat → List (LinAlg.Pair n)} {argsort : List ℝ → List Nat}
    (hs : LinAlg.SortsUp argsort) {x : LinAlg.Mat n} {N : Nat} :
    ((N < 1 ∨ n < N) → eigvals eig argsort x N = .error .exception) ∧
    (1 ≤ N → N ≤ n → N ≤ (eig x).length → ∃ vals, eigvals eig argsort x N = .ok vals ∧ vals.length = N ∧ vals.Pairwise (· ≥ ·) ∧
      ∃ rest, ((eig x).map Prod.fst).Perm (vals ++ rest) ∧ ∀ p ∈ rest, ∀ v ∈ vals, p ≤ v) ∧
    ((4 : ℝ) / 100 < (N : ℝ) / n → ∀ vals vecs, LinAlg.eigdec eig eigs argsort x N = .ok (vals, vecs) → eigvals eig argsort x N = .ok vals) := by
  have key : (4 : ℝ) / 100 < (N : ℝ) / n → ∀ vals vecs, LinAlg.eigdec eig eigs argsort x N = .ok (vals, vecs) → eigvals eig argsort x N = .ok vals := by
    intro hN vals vecs h
    unfold LinAlg.eigdec at h
    unfold eigvals
    split at h
    · cases h
    · next h1 =>
      rw [if_neg h1]
      dsimp only at h ⊢
      split at h <;>
      · cases h
        rfl
  refine ⟨fun h => if_pos h, fun h1 h2 h3 => ?_, key⟩
  have e : eigvals eig argsort x N = (LinAlg.eigdec eig (fun x _ => eig x) argsort x N).map Prod.fst := by
    unfold LinAlg.eigdec eigvals
    split
    · rfl
    · simp only [ite_self]
      split <;> rfl
  obtain ⟨vals, vecs, hv, l1, l2, hp, rest, hr, hle⟩ := (LinAlg.c150_eigdec (eig := eig) (eigs := fun x _ => eig x) hs (x := x) (N := N)).2 h1 h2 (eig x) (by simp) h3
  refine ⟨vals, by rw [e, hv]; rfl, l1, hp, rest.map Prod.fst, ?_, fun p hq v hv' => ?_⟩
  · have := hr.map Prod.fst
    rwa [List.map_append, List.map_fst_zip (by omega)] at this
  · obtain ⟨q, hq', rfl⟩ := List.mem_map.1 hq
    exact hle q hq' v hv'

section examples

/-- Two points in the plane, as columns. -/
def exA : Arr := ⟨2, 2, fun i j => if i = 0 ∧ j = 0 then 1 else if i = 1 ∧ j = 1 then 2 else 0⟩

/-- A point in the plane. -/
def exB : Arr := ⟨2, 1, fun i _ => if i = 0 then 4 else 3⟩

example : ∃ C, sqDist .matrix exA (some exB) none = .ok C ∧ C.r = 2 ∧ C.c = 1 ∧ C.f 0 0 = 18 ∧ C.f 1 0 = 17 := by
  obtain ⟨C, h, h1, h2, h3⟩ := c176_dist (a := exA) (b := exB) rfl (by decide)
  refine ⟨C, h, h1, h2, ?_, ?_⟩
  · rw [h3 0 (by decide) 0 (by decide)]; norm_num [exA, exB, Finset.sum_range_succ]
  · rw [h3 1 (by decide) 0 (by decide)]; norm_num [exA, exB, Finset.sum_range_succ]

example : ∃ C, sqDist .matrix exA (some exB) (some ⟨2, 1, fun i _ => if i = 0 then 10 else 1⟩) = .ok C ∧ C.f 0 0 = 106 ∧ C.f 1 0 = 91 := by
  obtain ⟨C, h, -, -, h3⟩ := c176_weights (a := exA) (b := exB) (Q := ⟨2, 1, fun i _ => if i = 0 then 10 else 1⟩) rfl (by decide) rfl rfl
  refine ⟨C, h, ?_, ?_⟩
  · rw [h3 0 (by decide)]; norm_num [exA, exB, Finset.sum_range_succ]
  · rw [h3 1 (by decide)]; norm_num [exA, exB, Finset.sum_range_succ]

example : sqDist .matrix exA none none = sqDist .matrix exA (some exA) none := (c176_self exA ⟨0, 7, fun _ _ => 0⟩ rfl none .matrix).1

example : sqDist .array exA (some ⟨3, 1, fun _ _ => 0⟩) none = .error .exception := (c176_shape (by decide) .array).1 (by decide) none

example : sqDist .array exA (some exA) none = .error .value := c176_array rfl (by decide) (by decide) (by decide)

example : ∃ C, sqDist .array exB (some exA) none = .ok C ∧ C.f 0 0 = 18 ∧ C.f 0 1 = 17 := by
  obtain ⟨C, h, -, -, h3⟩ := c176_column (a := exB) (b := exA) rfl (by decide) rfl
  refine ⟨C, h, ?_, ?_⟩
  · rw [h3 0 (by decide)]; norm_num [exA, exB, Finset.sum_range_succ]
  · rw [h3 1 (by decide)]; norm_num [exA, exB, Finset.sum_range_succ]

example : ∃ v, gpr (T := 1) (D := 1) (m := 1) .matrix [.seard, .noise] [0, 0, 0] (fun _ _ => 0) 0 = .ok v ∧
    predict (T := 1) (D := 1) (m := 1) .matrix [.seard, .noise] [0, 0, 0] (fun _ _ => 0) 0 = .error .type := by
  obtain ⟨g, hg⟩ := c113_value (T := 1) (D := 1) (m := 1) (e := [0]) rfl 0 0 (fun _ _ => 0) 0
  exact ⟨_, hg, (c176_predict_false .matrix _ _ _ _).2 _ hg⟩

example (r : ℝ × ℝ) : covSumT (T := 1) (D := 1) .matrix [.seard, .noise] [0, 0, 0] (fun _ _ => 0) (.number 2) ≠ .ok r :=
  (c176_tests .matrix _ _ _ 2).1 (by decide) r

/-- Two eigenvalues found in rising order; the larger one is returned. -/
example : ∃ argsort, LinAlg.SortsUp argsort ∧ eigvals (fun _ => [(1, ![1, 0]), (2, ![0, 1])]) argsort (Matrix.diagonal ![1, 2] : LinAlg.Mat 2) 1 = .ok [2] := by
  obtain ⟨argsort, hs⟩ := LinAlg.sortsUp_exists
  refine ⟨argsort, hs, ?_⟩
  obtain ⟨vals, e, h1, -, rest, hp, hr⟩ := (c176_eigvals (eig := fun _ => [(1, ![1, 0]), (2, ![0, 1])]) (eigs := fun _ _ => []) hs
    (x := (Matrix.diagonal ![1, 2] : LinAlg.Mat 2)) (N := 1)).2.1 le_rfl (by norm_num) (by simp)
  obtain ⟨v, rfl⟩ := List.length_eq_one_iff.1 h1
  have hm : (2 : ℝ) ∈ [v] ++ rest := hp.mem_iff.1 (by simp)
  have hv : v ∈ List.map Prod.fst [((1 : ℝ), (![1, 0] : Fin 2 → ℝ)), (2, ![0, 1])] := hp.mem_iff.2 (by simp)
  have h2 : (2 : ℝ) ≤ v := by
    rcases List.mem_append.1 hm with h | h
    · exact (List.mem_singleton.1 h).le
    · exact hr _ h v (by simp)
  simp at hv
  rcases hv with h | h
  · rw [h] at h2
    norm_num at h2
  · rw [e, h]

end examples

end Cdmir.SqDist
