import Verif.Props.HsicU
import Verif.Lemmas.NormCdf

/-! C147: the block test of HSIC. -/

namespace Cdmir.HsicTest

open Finset

noncomputable section

variable {m : Nat}

/-- The mean of `Kx i j * (Ky i j + Ky q r - 2 Ky i q)` over all quadruples of different rows: the unbiased estimate of HSIC. -/
def quad (Kx Ky : Mat m) : ℝ :=
  (∑ i, ∑ j, ∑ q, ∑ r, if i ≠ j ∧ q ≠ i ∧ q ≠ j ∧ r ≠ i ∧ r ≠ j ∧ r ≠ q then Kx i j * (Ky i j + Ky q r - 2 * Ky i q) else 0) /
    (m * (m - 1) * (m - 2) * (m - 3))

theorem zeroDiag_idem (K : Mat m) : zeroDiag (zeroDiag K) = zeroDiag K := by
  ext i j
  by_cases h : i = j <;> simp [zeroDiag, h]

theorem zeroDiag_shuffle (pp : Equiv.Perm (Fin m)) (K : Mat m) : zeroDiag (shuffle pp K) = shuffle pp (zeroDiag K) := by
  ext i j
  simp [zeroDiag, shuffle, Matrix.submatrix_apply]

theorem u_zeroDiag (Kx Ky : Mat m) : (uStat (zeroDiag Kx) (zeroDiag Ky)).1 = (uStat Kx Ky).1 := by
  simp only [uStat, zeroDiag_idem]

theorem shuffle_symm {K : Mat m} (h : K.IsSymm) (pp : Equiv.Perm (Fin m)) : (shuffle pp K).IsSymm := by
  ext i j
  exact h.apply _ _

theorem allSome_map {β : Type} (l : List β) (f : β → ℝ) : allSome (l.map fun x => some (f x)) = some (l.map f) := by
  unfold allSome
  induction l with
  | nil => rfl
  | cons x t ih =>
    rw [List.map_cons, List.mapM_cons, ih]
    rfl

theorem sumRange (f : Nat → ℝ) (n : Nat) : ((List.range n).map f).sum = ∑ i ∈ range n, f i := by
  induction n with
  | zero => rfl
  | succ n ih => rw [List.range_succ, List.map_append, List.sum_append, sum_range_succ, ih]; simp

theorem avg_range (f : Nat → ℝ) (n : Nat) : avg ((List.range n).map f) = (∑ i ∈ range n, f i) / n := by
  unfold avg
  rw [sumRange, List.length_map, List.length_range]

theorem variance_range (f : Nat → ℝ) (n : Nat) :
    variance ((List.range n).map f) = (∑ i ∈ range n, (f i - (∑ j ∈ range n, f j) / n) ^ 2) / n := by
  unfold variance
  rw [List.map_map, avg_range, avg_range]
  rfl

theorem allSome_eq {β : Type} (l : List β) {f : β → Option ℝ} {g : β → ℝ} (h : ∀ x ∈ l, f x = some (g x)) :
    allSome (l.map f) = some (l.map g) := by
  rw [← allSome_map, List.map_congr_left h]

variable {ρ σ : Type} {b n : Nat} {kx : (Fin b → ρ) → Mat b} {ky : (Fin b → σ) → Mat b} {X : Nat → ρ} {Y : Nat → σ}
  {perm : Nat → Equiv.Perm (Fin b)}

/-- The variance that the test divides by, in terms of the quadruples. -/
def nullVar (method : NullVar) (b n : Nat) (kx : (Fin b → ρ) → Mat b) (ky : (Fin b → σ) → Mat b) (X : Nat → ρ) (Y : Nat → σ)
    (perm : Nat → Equiv.Perm (Fin b)) : ℝ :=
  let N := n / b
  let w := fun bb => quad (kx (block X b bb)) (shuffle (perm bb) (ky (block Y b bb)))
  let u := fun bb => quad (kx (block X b bb)) (ky (block Y b bb))
  match method with
  | .permutation => (b : ℝ) ^ 2 * ((∑ i ∈ range N, (w i - (∑ j ∈ range N, w j) / N) ^ 2) / N)
  | .direct => 8 * ((∑ i ∈ range N, quad (kx (block X b i)) (kx (block X b i))) / N) *
      ((∑ i ∈ range N, quad (ky (block Y b i)) (ky (block Y b i))) / N)
  | _ => (∑ i ∈ range N, (u i - (∑ j ∈ range N, u j) / N) ^ 2) / N

theorem quad_self (hm : 4 ≤ m) {K : Mat m} (h : K.IsSymm) : 0 ≤ quad K K := by
  have := c144_inner hm h h
  rw [c144_tuples hm h h] at this
  have e := Option.some.inj this
  unfold quad
  rw [e]
  have h4 : (4 : ℝ) ≤ m := by exact_mod_cast hm
  have h3 : (0 : ℝ) < (m : ℝ) - 3 := by linarith
  have : (0 : ℝ) < m := by linarith
  refine div_nonneg (sum_nonneg fun i _ => sum_nonneg fun j _ => mul_self_nonneg _) (by positivity)

theorem nullVar_nonneg (hb : 4 ≤ b) (hx : ∀ x, (kx x).IsSymm) (hy : ∀ y, (ky y).IsSymm) (method : NullVar) :
    0 ≤ nullVar method b n kx ky X Y perm := by
  have h1 : ∀ (f : Nat → ℝ) (N : Nat), 0 ≤ (∑ i ∈ range N, (f i - (∑ j ∈ range N, f j) / N) ^ 2) / N := fun f N =>
    div_nonneg (sum_nonneg fun i _ => sq_nonneg _) (Nat.cast_nonneg _)
  unfold nullVar
  cases method with
  | permutation => exact mul_nonneg (sq_nonneg _) (h1 _ _)
  | direct =>
    refine mul_nonneg (mul_nonneg (by norm_num) ?_) ?_
    · exact div_nonneg (sum_nonneg fun i _ => quad_self hb (hx _)) (Nat.cast_nonneg _)
    · exact div_nonneg (sum_nonneg fun i _ => quad_self hb (hy _)) (Nat.cast_nonneg _)
  | across => exact h1 _ _
  | other => exact h1 _ _

theorem blockTest_eq (hb : 4 ≤ b) (hn : b ≤ n) (hx : ∀ x, (kx x).IsSymm) (hy : ∀ y, (ky y).IsSymm) {method : NullVar} (hm : method ≠ .other) :
    blockTest method false b n kx ky X Y perm =
      .ok (sfQuot (Real.sqrt (n * b) * ((∑ i ∈ range (n / b), quad (kx (block X b i)) (ky (block Y b i))) / ((n / b : Nat) : ℝ)))
        (nullVar method b n kx ky X Y perm)) := by
  have hN : n / b ≠ 0 := (Nat.div_pos hn (by omega)).ne'
  have q : ∀ {K L : Mat b}, K.IsSymm → L.IsSymm → (uStat K L).1 = some (quad K L) := fun h h' => c144_tuples hb h h'
  have qz : ∀ {K L : Mat b}, K.IsSymm → L.IsSymm → (uStat (zeroDiag K) (zeroDiag L)).1 = some (quad K L) := fun h h' => by
    rw [u_zeroDiag]; exact q h h'
  unfold blockTest
  simp only [if_neg (show b ≠ 0 by omega), if_neg hm, if_neg hN, Bool.false_eq_true, if_false]
  have hst : allSome (((List.range (n / b)).map fun bb => withShuffles true (if method = .permutation then [perm bb] else [])
      (decide (method = .direct)) (kx (block X b bb)) (ky (block Y b bb))).map (·.stat)) =
      some ((List.range (n / b)).map fun bb => quad (kx (block X b bb)) (ky (block Y b bb))) := by
    rw [List.map_map]
    refine allSome_eq _ fun bb _ => ?_
    simp only [Function.comp, withShuffles]
    split <;> exact q (hx _) (hy _)
  rw [hst]
  simp only
  rw [sumRange]
  cases method with
  | other => exact absurd rfl hm
  | across =>
    simp only
    rw [variance_range]
    rfl
  | permutation =>
    have hnu : allSome (((List.range (n / b)).map fun bb => withShuffles true (if NullVar.permutation = .permutation then [perm bb] else [])
        (decide (NullVar.permutation = .direct)) (kx (block X b bb)) (ky (block Y b bb))).map fun r => (r.null[0]?).join) =
        some ((List.range (n / b)).map fun bb => quad (kx (block X b bb)) (shuffle (perm bb) (ky (block Y b bb)))) := by
      rw [List.map_map]
      refine allSome_eq _ fun bb _ => ?_
      simp only [Function.comp, withShuffles, if_true, reduceCtorEq, decide_false, Bool.false_eq_true, if_false, List.map_cons, List.map_nil,
        List.getElem?_cons_zero, Option.join_some]
      change (uStat (zeroDiag (kx (block X b bb))) (shuffle (perm bb) (zeroDiag (ky (block Y b bb))))).1 = _
      rw [← zeroDiag_shuffle]
      exact qz (hx _) (shuffle_symm (hy _) _)
    rw [hnu]
    simp only [Option.map_some]
    rw [variance_range]
    rfl
  | direct =>
    have hvx : allSome (((List.range (n / b)).map fun bb => withShuffles true (if NullVar.direct = .permutation then [perm bb] else [])
        (decide (NullVar.direct = .direct)) (kx (block X b bb)) (ky (block Y b bb))).map fun r => r.vars.bind (·.1)) =
        some ((List.range (n / b)).map fun bb => 2 * quad (kx (block X b bb)) (kx (block X b bb))) := by
      rw [List.map_map]
      refine allSome_eq _ fun bb _ => ?_
      simp only [Function.comp, withShuffles, if_true, reduceCtorEq, decide_true, Option.bind_some]
      change ((uStat (zeroDiag (kx (block X b bb))) (zeroDiag (kx (block X b bb)))).1.map _) = _
      rw [qz (hx _) (hx _)]
      rfl
    have hvy : allSome (((List.range (n / b)).map fun bb => withShuffles true (if NullVar.direct = .permutation then [perm bb] else [])
        (decide (NullVar.direct = .direct)) (kx (block X b bb)) (ky (block Y b bb))).map fun r => r.vars.bind (·.2)) =
        some ((List.range (n / b)).map fun bb => 2 * quad (ky (block Y b bb)) (ky (block Y b bb))) := by
      rw [List.map_map]
      refine allSome_eq _ fun bb _ => ?_
      simp only [Function.comp, withShuffles, if_true, reduceCtorEq, decide_true, Option.bind_some]
      change ((uStat (zeroDiag (ky (block Y b bb))) (zeroDiag (ky (block Y b bb)))).1.map _) = _
      rw [qz (hy _) (hy _)]
      rfl
    rw [hvx, hvy]
    simp only [Option.map_some, Option.bind_some]
    rw [avg_range, avg_range, ← mul_sum, ← mul_sum]
    unfold nullVar
    simp only
    congr 2
    ring

/-- C147: what the block test computes, for symmetric kernels and at least one block of at least four rows. With the mean `s` of the unbiased
estimates of the blocks and the variance `v` of the chosen method, which is not negative, the p-value is the upper tail of the normal distribution
at `√(n b) s / √v`; without variance it is 0, 1 or NaN by the sign of `s`. -/
theorem c147_value (hb : 4 ≤ b) (hn : b ≤ n) (hx : ∀ x, (kx x).IsSymm) (hy : ∀ y, (ky y).IsSymm) {method : NullVar} (hm : method ≠ .other)
    {s v : ℝ} (hs : s = (∑ i ∈ range (n / b), quad (kx (block X b i)) (ky (block Y b i))) / ((n / b : Nat) : ℝ))
    (hv : v = nullVar method b n kx ky X Y perm) :
    0 ≤ v ∧ (0 < v → blockTest method false b n kx ky X Y perm = .ok (.val (1 - Fisher.normCdf (Real.sqrt (n * b) * s / Real.sqrt v)))) ∧
      (v = 0 → blockTest method false b n kx ky X Y perm = .ok (if s = 0 then .nan else if 0 < s then .val 0 else .val 1)) := by
  subst hs hv
  refine ⟨nullVar_nonneg hb hx hy _, fun h => ?_, fun h => ?_⟩
  · rw [blockTest_eq hb hn hx hy hm]
    unfold sfQuot
    rw [if_neg (not_lt.2 h.le), if_neg h.ne']
  · rw [blockTest_eq hb hn hx hy hm, h]
    have hp : 0 < Real.sqrt (n * b) := by
      apply Real.sqrt_pos.2
      have : (0 : ℝ) < b := by exact_mod_cast (by omega : 0 < b)
      have : (0 : ℝ) < n := by exact_mod_cast (by omega : 0 < n)
      positivity
    unfold sfQuot
    rw [if_neg (lt_irrefl _), if_pos rfl]
    simp only [mul_eq_zero, hp.ne', false_or, mul_pos_iff_of_pos_left hp]

/-- C147: when the test says nothing. With fewer rows than a block has, or blocks of fewer than four rows, the p-value is NaN; a block size of zero, an unknown
method and random features (with a block) raise. -/
theorem c147_raises (method : NullVar) (rff : Bool) :
    (0 < b → n < b → method ≠ .other → blockTest method rff b n kx ky X Y perm = .ok .nan) ∧
      (0 < b → b < 4 → method ≠ .other → blockTest method false b n kx ky X Y perm = .ok .nan) ∧
      (b = 0 → blockTest method rff b n kx ky X Y perm = .error .exception) ∧
      (0 < b → b ≤ n → method = .other → blockTest method rff b n kx ky X Y perm = .error .notImplemented) ∧
      (0 < b → b ≤ n → method ≠ .other → blockTest method true b n kx ky X Y perm = .error .type) := by
  refine ⟨fun h h1 hm => ?_, fun h h1 hm => ?_, fun h => ?_, fun h h1 hm => ?_, fun h h1 hm => ?_⟩
  · unfold blockTest
    simp only [if_neg h.ne', if_neg hm, Nat.div_eq_of_lt h1, if_true]
    rfl
  · unfold blockTest
    simp only [if_neg h.ne', if_neg hm, Bool.false_eq_true, if_false]
    by_cases hN : n / b = 0
    · rw [if_pos hN]; rfl
    · rw [if_neg hN]
      have : allSome (((List.range (n / b)).map fun bb => withShuffles true (if method = .permutation then [perm bb] else [])
          (decide (method = .direct)) (kx (block X b bb)) (ky (block Y b bb))).map (·.stat)) = none := by
        obtain ⟨k, hk⟩ := Nat.exists_eq_succ_of_ne_zero hN
        rw [hk, List.range_succ_eq_map, List.map_cons, List.map_cons]
        unfold allSome
        rw [List.mapM_cons]
        have hnone : ∀ K L : Mat b, (uStat K L).1 = none := fun K L => by
          have := (c144_finite K L).not.2 (by omega)
          simpa using this
        have : (withShuffles true (if method = .permutation then [perm 0] else []) (decide (method = .direct)) (kx (block X b 0))
            (ky (block Y b 0))).stat = none := by
          simp only [withShuffles]
          split <;> exact hnone _ _
        rw [this]
        rfl
      rw [this]
      rfl
  · unfold blockTest
    rw [if_pos h]
    rfl
  · unfold blockTest
    have : n / b ≠ 0 := (Nat.div_pos h1 h).ne'
    simp only [if_neg h.ne', if_pos hm, if_neg this]
    rfl
  · unfold blockTest
    have : n / b ≠ 0 := (Nat.div_pos h1 h).ne'
    simp only [if_neg h.ne', if_neg hm, if_neg this, if_true]
    rfl

/-- C147: a p-value is at least 0 and at most 1. -/
theorem c147_range (method : NullVar) (rff : Bool) {p : ℝ} (h : blockTest method rff b n kx ky X Y perm = .ok (.val p)) : 0 ≤ p ∧ p ≤ 1 := by
  have key : ∀ a v, sfQuot a v = .val p → 0 ≤ p ∧ p ≤ 1 := by
    intro a v h
    unfold sfQuot at h
    split_ifs at h
    · cases h; norm_num
    · cases h; norm_num
    · cases h
      have h1 := Fisher.normCdf_le_one (a / Real.sqrt v)
      have h2 : 0 ≤ Fisher.normCdf (a / Real.sqrt v) := ProbabilityTheory.cdf_nonneg _ _
      constructor <;> linarith
  unfold blockTest at h
  simp only at h
  split at h
  · cases h
  split at h
  · split at h <;> cases h
  split at h
  · cases h
  split at h
  · cases h
  split at h
  · cases h
  · have h := Except.ok.inj h
    split at h
    · cases h
    · exact key _ _ h

/-- C147: with a single block, methods 'permutation' (the default) and 'across' divide by zero: the answer is 0, 1 or NaN by the sign of the statistic of the
first `b` rows, and never anything between. `INtest2` uses blocks of 200 rows, so that this is what it does for 200 to 399 rows. -/
theorem c147_single (hb : 4 ≤ b) (hn : b ≤ n) (hn' : n < 2 * b) (hx : ∀ x, (kx x).IsSymm) (hy : ∀ y, (ky y).IsSymm) {method : NullVar}
    (hm : method = .permutation ∨ method = .across) : blockTest method false b n kx ky X Y perm =
      .ok (if quad (kx (block X b 0)) (ky (block Y b 0)) = 0 then .nan
        else if 0 < quad (kx (block X b 0)) (ky (block Y b 0)) then .val 0 else .val 1) := by
  have hN : n / b = 1 := by
    apply Nat.div_eq_of_lt_le <;> omega
  have hm' : method ≠ .other := by rcases hm with rfl | rfl <;> decide
  have h := (c147_value (X := X) (Y := Y) (perm := perm) hb hn hx hy hm' rfl rfl).2.2 (by
    unfold nullVar
    rw [hN]
    rcases hm with rfl | rfl <;> simp)
  rw [h, hN]
  simp

/-- C147: only the rows of whole blocks matter for the statistic and the variance; the rows left over change the p-value all the same, by the factor
`√n` in its argument. -/
theorem c147_rest (hb : 4 ≤ b) (hx : ∀ x, (kx x).IsSymm) (hy : ∀ y, (ky y).IsSymm) {method : NullVar} (hm : method ≠ .other) {X' : Nat → ρ}
    {Y' : Nat → σ} {N : Nat} (hN : 0 < N) (hX : ∀ i < N * b, X i = X' i) (hY : ∀ i < N * b, Y i = Y' i) : ∃ s v : ℝ, 0 ≤ v ∧
      ∀ n, N * b ≤ n → n < (N + 1) * b → (blockTest method false b n kx ky X Y perm = blockTest method false b n kx ky X' Y' perm) ∧
        (0 < v → blockTest method false b n kx ky X Y perm = .ok (.val (1 - Fisher.normCdf (Real.sqrt n * (Real.sqrt b * s / Real.sqrt v))))) := by
  have hdiv : ∀ n, N * b ≤ n → n < (N + 1) * b → n / b = N := fun n h1 h2 => Nat.div_eq_of_lt_le h1 h2
  have hbx : ∀ i ∈ range N, block X b i = block X' b i := fun i hi => by
    funext j
    have := mem_range.1 hi
    exact hX _ (by have := j.2; nlinarith)
  have hby : ∀ i ∈ range N, block Y b i = block Y' b i := fun i hi => by
    funext j
    have := mem_range.1 hi
    exact hY _ (by have := j.2; nlinarith)
  refine ⟨(∑ i ∈ range N, quad (kx (block X b i)) (ky (block Y b i))) / (N : ℝ), nullVar method b (N * b) kx ky X Y perm,
    nullVar_nonneg hb hx hy _, fun n h1 h2 => ?_⟩
  have e := hdiv n h1 h2
  have hle : b ≤ n := le_trans (Nat.le_mul_of_pos_left b hN) h1
  have ev : nullVar method b (N * b) kx ky X Y perm = nullVar method b n kx ky X Y perm := by
    unfold nullVar
    rw [e, Nat.mul_div_cancel _ (by omega)]
  refine ⟨?_, fun hv => ?_⟩
  · rw [blockTest_eq hb hle hx hy hm, blockTest_eq hb hle hx hy hm]
    have e1 : (∑ i ∈ range (n / b), quad (kx (block X b i)) (ky (block Y b i))) = ∑ i ∈ range (n / b), quad (kx (block X' b i)) (ky (block Y' b i)) := by
      rw [e]
      exact sum_congr rfl fun i hi => by rw [hbx i hi, hby i hi]
    have e2 : nullVar method b n kx ky X Y perm = nullVar method b n kx ky X' Y' perm := by
      unfold nullVar
      rw [e]
      have w : (∑ i ∈ range N, quad (kx (block X b i)) (shuffle (perm i) (ky (block Y b i)))) =
          ∑ i ∈ range N, quad (kx (block X' b i)) (shuffle (perm i) (ky (block Y' b i))) := sum_congr rfl fun i hi => by rw [hbx i hi, hby i hi]
      rw [e] at e1
      cases method with
      | permutation =>
        simp only [w]
        congr 2
        exact sum_congr rfl fun i hi => by rw [hbx i hi, hby i hi]
      | direct =>
        simp only
        have d1 : (∑ i ∈ range N, quad (kx (block X b i)) (kx (block X b i))) = ∑ i ∈ range N, quad (kx (block X' b i)) (kx (block X' b i)) :=
          sum_congr rfl fun i hi => by rw [hbx i hi]
        have d2 : (∑ i ∈ range N, quad (ky (block Y b i)) (ky (block Y b i))) = ∑ i ∈ range N, quad (ky (block Y' b i)) (ky (block Y' b i)) :=
          sum_congr rfl fun i hi => by rw [hby i hi]
        rw [d1, d2]
      | across =>
        simp only [e1]
        congr 1
        exact sum_congr rfl fun i hi => by rw [hbx i hi, hby i hi]
      | other => exact absurd rfl hm
    rw [e1, e2]
  · rw [ev] at hv
    have := (c147_value (X := X) (Y := Y) (perm := perm) hb hle hx hy hm rfl rfl).2.1 hv
    rw [this, e, ev, Real.sqrt_mul (Nat.cast_nonneg n)]
    congr 4
    ring

/-- C147: expected, the variance 'across' the blocks makes the same test as the variance of shuffled statistics. False: where both variances are the same
number, 'across' multiplies the argument by the block size. -/
theorem c147_across_false (hb : 4 ≤ b) (hn : b ≤ n) (hx : ∀ x, (kx x).IsSymm) (hy : ∀ y, (ky y).IsSymm)
    (hpos : 0 < ∑ i ∈ range (n / b), quad (kx (block X b i)) (ky (block Y b i)))
    (hv : 0 < nullVar .across b n kx ky X Y perm)
    (he : nullVar .permutation b n kx ky X Y perm = (b : ℝ) ^ 2 * nullVar .across b n kx ky X Y perm) :
    ∃ z : ℝ, 0 < z ∧ blockTest .permutation false b n kx ky X Y perm = .ok (.val (1 - Fisher.normCdf z)) ∧
      blockTest .across false b n kx ky X Y perm = .ok (.val (1 - Fisher.normCdf (b * z))) ∧
      1 - Fisher.normCdf (b * z) < 1 - Fisher.normCdf z := by
  have b4 : (4 : ℝ) ≤ b := by exact_mod_cast hb
  have hN : (0 : ℝ) < ((n / b : Nat) : ℝ) := by exact_mod_cast Nat.div_pos hn (by omega)
  have hn0 : (0 : ℝ) < n := by exact_mod_cast (by omega : 0 < n)
  have hsv := Real.sqrt_pos.2 hv
  have hnb : 0 < Real.sqrt (n * b) := Real.sqrt_pos.2 (by positivity)
  refine ⟨Real.sqrt (n * b) * ((∑ i ∈ range (n / b), quad (kx (block X b i)) (ky (block Y b i))) / ((n / b : Nat) : ℝ)) /
    Real.sqrt (nullVar .permutation b n kx ky X Y perm), ?_, ?_, ?_, ?_⟩
  · rw [he, Real.sqrt_mul (sq_nonneg _), Real.sqrt_sq (by linarith)]
    positivity
  · exact (c147_value (X := X) (Y := Y) (perm := perm) hb hn hx hy (by decide) rfl rfl).2.1 (by rw [he]; positivity)
  · rw [(c147_value (X := X) (Y := Y) (perm := perm) hb hn hx hy (by decide) rfl rfl).2.1 hv, he, Real.sqrt_mul (sq_nonneg _),
      Real.sqrt_sq (by linarith)]
    congr 4
    field_simp
  · have hz : 0 < Real.sqrt (n * b) * ((∑ i ∈ range (n / b), quad (kx (block X b i)) (ky (block Y b i))) / ((n / b : Nat) : ℝ)) /
        Real.sqrt (nullVar .permutation b n kx ky X Y perm) := by
      rw [he, Real.sqrt_mul (sq_nonneg _), Real.sqrt_sq (by linarith)]
      positivity
    have := Fisher.normCdf_strictMono (lt_mul_of_one_lt_left hz (show (1 : ℝ) < b by linarith))
    linarith

theorem quad_smul (c d : ℝ) (Kx Ky : Mat m) : quad (c • Kx) (d • Ky) = c * d * quad Kx Ky := by
  unfold quad
  rw [← mul_div_assoc]
  congr 1
  simp only [mul_sum]
  refine sum_congr rfl fun i _ => sum_congr rfl fun j _ => sum_congr rfl fun q _ => sum_congr rfl fun r _ => ?_
  split
  · simp only [Matrix.smul_apply, smul_eq_mul]
    ring
  · simp

/-- C147: the scale of either kernel does not matter, with any method. -/
theorem c147_scale (hb : 4 ≤ b) (hn : b ≤ n) (hx : ∀ x, (kx x).IsSymm) (hy : ∀ y, (ky y).IsSymm) {method : NullVar} (hm : method ≠ .other)
    {c d : ℝ} (hc : 0 < c) (hd : 0 < d) :
    blockTest method false b n (fun x => c • kx x) (fun y => d • ky y) X Y perm = blockTest method false b n kx ky X Y perm := by
  have hx' : ∀ x, (c • kx x).IsSymm := fun x => by
    ext i j
    exact congrArg (c * ·) ((hx x).apply i j)
  have hy' : ∀ y, (d • ky y).IsSymm := fun y => by
    ext i j
    exact congrArg (d * ·) ((hy y).apply i j)
  have hsh : ∀ pp y, shuffle pp (d • ky y) = d • shuffle pp (ky y) := fun _ _ => rfl
  have hcd : 0 < c * d := mul_pos hc hd
  have e1 : ∀ N, (∑ i ∈ range N, quad (c • kx (block X b i)) (d • ky (block Y b i))) = c * d * ∑ i ∈ range N, quad (kx (block X b i)) (ky (block Y b i)) := by
    intro N
    rw [mul_sum]
    exact sum_congr rfl fun i _ => quad_smul _ _ _ _
  have var : ∀ (f : Nat → ℝ) (N : Nat), (∑ i ∈ range N, (c * d * f i - (∑ j ∈ range N, c * d * f j) / N) ^ 2) / N =
      (c * d) ^ 2 * ((∑ i ∈ range N, (f i - (∑ j ∈ range N, f j) / N) ^ 2) / N) := by
    intro f N
    have h1 : (∑ j ∈ range N, c * d * f j) = c * d * ∑ j ∈ range N, f j := (mul_sum _ _ _).symm
    rw [h1, ← mul_div_assoc, mul_sum (range N) (fun i => (f i - (∑ j ∈ range N, f j) / N) ^ 2)]
    congr 1
    exact sum_congr rfl fun i _ => by ring
  have e2 : nullVar method b n (fun x => c • kx x) (fun y => d • ky y) X Y perm = (c * d) ^ 2 * nullVar method b n kx ky X Y perm := by
    unfold nullVar
    cases method with
    | other => exact absurd rfl hm
    | across =>
      simp only [quad_smul]
      exact var _ _
    | permutation =>
      simp only [hsh, quad_smul]
      rw [var]
      ring
    | direct =>
      simp only [quad_smul, ← mul_sum]
      ring
  rw [blockTest_eq hb hn hx' hy' hm, blockTest_eq hb hn hx hy hm, e1, e2]
  congr 1
  have hv := nullVar_nonneg (n := n) (X := X) (Y := Y) (perm := perm) hb hx hy method
  generalize nullVar method b n kx ky X Y perm = v at hv
  generalize (∑ i ∈ range (n / b), quad (kx (block X b i)) (ky (block Y b i))) = s
  rw [show Real.sqrt (n * b) * (c * d * s / ((n / b : Nat) : ℝ)) = c * d * (Real.sqrt (n * b) * (s / ((n / b : Nat) : ℝ))) by ring]
  generalize Real.sqrt (n * b) * (s / ((n / b : Nat) : ℝ)) = a
  unfold sfQuot
  have hneg : ¬ (c * d) ^ 2 * v < 0 := not_lt.2 (by positivity)
  rw [if_neg hneg, if_neg (not_lt.2 hv)]
  by_cases h0 : v = 0
  · rw [h0, mul_zero, if_pos rfl, if_pos rfl]
    simp only [mul_eq_zero, hc.ne', hd.ne', false_or, mul_pos_iff_of_pos_left hcd]
  · rw [if_neg (mul_ne_zero (pow_ne_zero 2 hcd.ne') h0), if_neg h0, Real.sqrt_mul (sq_nonneg _), Real.sqrt_sq hcd.le,
      mul_div_mul_left _ _ hcd.ne']

/-! ### Concrete cases -/

theorem exK_quad : quad exK exK = 3 / 2 := by
  have h := c144_tuples (le_refl 4) exK_symm exK_symm
  have h' : (uStat exK exK).1 = some (3 / 2) := by
    unfold uStat
    dsimp only
    rw [if_neg (by norm_num)]
    simp [Matrix.trace, total, zeroDiag, exK, Matrix.mul_apply, Fin.sum_univ_four]
    norm_num
  rw [h'] at h
  exact (Option.some.inj h).symm

/-- Kernels that depend on the data: a matrix times the first value of a block. -/
def exKer : (Fin 4 → ℝ) → Mat 4 := fun x => x 0 • exK

theorem exKer_symm (x : Fin 4 → ℝ) : (exKer x).IsSymm := by
  ext i j
  exact congrArg (x 0 * ·) (exK_symm.apply i j)

/-- Eight rows, two blocks, and shuffles that do nothing: both variances are the same, and positive. -/
example : ∃ z : ℝ, 0 < z ∧ blockTest .permutation false 4 8 exKer (fun _ => exK) (fun i => (i : ℝ) + 1) (fun _ => ()) (fun _ => 1) =
    .ok (.val (1 - Fisher.normCdf z)) ∧
    blockTest .across false 4 8 exKer (fun _ => exK) (fun i => (i : ℝ) + 1) (fun _ => ()) (fun _ => 1) =
      .ok (.val (1 - Fisher.normCdf ((4 : Nat) * z))) ∧ 1 - Fisher.normCdf ((4 : Nat) * z) < 1 - Fisher.normCdf z := by
  have q : ∀ x, quad (exKer x) exK = x 0 * (3 / 2) := fun x => by
    have := quad_smul (x 0) 1 exK exK
    rw [one_smul, exK_quad, mul_one] at this
    exact this
  have hs : ∀ K : Mat 4, shuffle 1 K = K := fun K => rfl
  refine c147_across_false (le_refl 4) (by norm_num) exKer_symm (fun _ => exK_symm) ?_ ?_ ?_
  · simp only [q, show 8 / 4 = 2 from rfl, sum_range_succ, sum_range_zero, block]
    norm_num
  · simp only [nullVar, q, show 8 / 4 = 2 from rfl, sum_range_succ, sum_range_zero, block]
    norm_num
  · simp only [nullVar, hs]

/-- One block: the p-value is 0. -/
example : blockTest .permutation false 4 7 (fun _ => exK) (fun _ => exK) (fun _ => ()) (fun _ => ()) (fun _ => Equiv.swap 0 1) = .ok (.val 0) := by
  rw [c147_single (le_refl 4) (by norm_num) (by norm_num) (fun _ => exK_symm) (fun _ => exK_symm) (Or.inl rfl), exK_quad]
  norm_num

example := c147_value (n := 9) (X := fun i => (i : ℝ)) (Y := fun _ : Nat => ()) (perm := fun _ => Equiv.swap 0 2) (method := .direct) (le_refl 4) (by norm_num) exKer_symm (fun _ => exK_symm)
  (by decide) rfl rfl
example := c147_rest (perm := fun _ => Equiv.swap 0 2) (X := fun i => (i : ℝ)) (X' := fun i => if i < 8 then (i : ℝ) else 0) (Y := fun _ => ()) (Y' := fun _ => ()) (method := .across) (N := 2) (le_refl 4)
  exKer_symm (fun _ => exK_symm) (by decide) (by norm_num) (fun i hi => by simp only [if_pos (show i < 8 from hi)]) (fun _ _ => rfl)
example := c147_scale (n := 9) (X := fun i => (i : ℝ)) (Y := fun _ : Nat => ()) (perm := fun _ => Equiv.swap 0 2) (method := .permutation) (le_refl 4) (by norm_num) exKer_symm (fun _ => exK_symm)
  (by decide) (c := 2) (d := 3) (by norm_num) (by norm_num)

end

end Cdmir.HsicTest
