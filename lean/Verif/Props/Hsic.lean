import Verif.Lemmas.Hsic
import Verif.Props.Kci

/-! C84 to C86: the HSIC test and the scores of the additive noise model. -/

namespace Cdmir.KTest
open BigOperators

variable {n d e : Nat}

/-- `hsicGam` once the kernels are known. -/
noncomputable def gamOf (ppf : ℝ → ℝ → ℝ → Option ℝ) (alpha : ℝ) : Option (Matrix (Fin n) (Fin n) ℝ) → Option (Matrix (Fin n) (Fin n) ℝ) →
    Option ℝ × Option ℝ
  | some K, some L =>
    let m := meanHsic K L
    (some (statOf (center K) (center L)),
      match varHsic (center K) (center L) with
      | none => none
      | some v => if v = 0 ∨ m = 0 then none else ppf (1 - alpha) (m ^ 2 / v) (v * n / m))
  | _, _ => (none, none)

theorem hsicGam_eq (ppf : ℝ → ℝ → ℝ → Option ℝ) (alpha : ℝ) (X : Data n d) (Y : Data n e) :
    hsicGam ppf alpha X Y = gamOf ppf alpha (kernelOf X) (kernelOf Y) := by
  unfold hsicGam kernelOf gamOf
  cases width X <;> cases width Y <;> rfl

theorem statOf_eq {K L : Matrix (Fin n) (Fin n) ℝ} (hK : ∀ i j, K i j = K j i) : statOf K L = hsicStat K L / n := by
  unfold statOf hsicStat
  congr 1
  exact Finset.sum_congr rfl fun i _ => Finset.sum_congr rfl fun j _ => by rw [hK]

theorem hsicStat_comm (K L : Matrix (Fin n) (Fin n) ℝ) : hsicStat K L = hsicStat L K :=
  Finset.sum_congr rfl fun _ _ => Finset.sum_congr rfl fun _ _ => mul_comm _ _

theorem varHsic_comm (K L : Matrix (Fin n) (Fin n) ℝ) : varHsic K L = varHsic L K := by
  have : varBase K L = varBase L K := by
    unfold varBase
    simp only [mul_comm]
  unfold varHsic
  rw [this]

theorem meanHsic_comm (K L : Matrix (Fin n) (Fin n) ℝ) : meanHsic K L = meanHsic L K := by
  unfold meanHsic
  congr 1
  ring

/-- C84. The HSIC test is symmetric. -/
theorem c84_symm (ppf : ℝ → ℝ → ℝ → Option ℝ) (alpha : ℝ) (X : Data n d) (Y : Data n e) :
    hsicGam ppf alpha X Y = hsicGam ppf alpha Y X := by
  rw [hsicGam_eq, hsicGam_eq]
  cases hX : kernelOf X with
  | none => cases hY : kernelOf Y <;> rfl
  | some K =>
    cases hY : kernelOf Y with
    | none => rfl
    | some L =>
      have h1 := psd_symm (center_psd (kernelOf_some hX).1)
      have h2 := psd_symm (center_psd (kernelOf_some hY).1)
      simp only [gamOf, statOf_eq h1, statOf_eq h2, hsicStat_comm (center K), varHsic_comm (center K), meanHsic_comm K]

/-- C84. Shifting the columns of a sample, and multiplying the whole sample by a number, does not change the HSIC test. -/
theorem c84_affine (ppf : ℝ → ℝ → ℝ → Option ℝ) (alpha : ℝ) (X : Data n d) (Y : Data n e) {a a' : ℝ} (ha : a ≠ 0) (ha' : a' ≠ 0)
    (b : Fin d → ℝ) (b' : Fin e → ℝ) :
    hsicGam ppf alpha (fun i k => a * X i k + b k : Data n d) (fun i k => a' * Y i k + b' k : Data n e) = hsicGam ppf alpha X Y := by
  have key : ∀ {d : Nat} (X : Data n d) (a : ℝ) (b : Fin d → ℝ), a ≠ 0 → kernelOf (fun i k => a * X i k + b k : Data n d) = kernelOf X := by
    intro d X a b ha
    refine kernelOf_scale (c := a ^ 2) (by positivity) fun i j => ?_
    unfold sqDist
    rw [Finset.mul_sum]
    exact Finset.sum_congr rfl fun k _ => by ring
  rw [hsicGam_eq, hsicGam_eq, key X a b ha, key Y a' b' ha']

/-- C84. The order of the rows does not matter to the HSIC test. -/
theorem c84_perm (ppf : ℝ → ℝ → ℝ → Option ℝ) (alpha : ℝ) (X : Data n d) (Y : Data n e) (σ : Equiv.Perm (Fin n)) :
    hsicGam ppf alpha (fun i k => X (σ i) k : Data n d) (fun i k => Y (σ i) k : Data n e) = hsicGam ppf alpha X Y := by
  rw [hsicGam_eq, hsicGam_eq, kernelOf_perm, kernelOf_perm]
  cases hX : kernelOf X with
  | none => rfl
  | some K =>
    cases hY : kernelOf Y with
    | none => rfl
    | some L =>
      have hs : ∀ A B : Matrix (Fin n) (Fin n) ℝ, statOf (A.submatrix σ σ) (B.submatrix σ σ) = statOf A B := by
        intro A B
        unfold statOf
        congr 1
        exact sum_perm (fun i j => A j i * B i j) σ
      have hv : ∀ A B : Matrix (Fin n) (Fin n) ℝ, varHsic (A.submatrix σ σ) (B.submatrix σ σ) = varHsic A B := by
        intro A B
        have : varBase (A.submatrix σ σ) (B.submatrix σ σ) = varBase A B := by
          unfold varBase
          congr 3
          · exact sum_perm (fun i j => (A i j * B i j / 6) ^ 2) σ
          · exact Equiv.sum_comp σ fun i => (A i i * B i i / 6) ^ 2
        unfold varHsic
        rw [this]
      have hm : ∀ A : Matrix (Fin n) (Fin n) ℝ, mu (A.submatrix σ σ) = mu A := by
        intro A
        unfold mu
        congr 2
        rw [← sum_perm (fun i j => if i = j then 0 else A i j) σ]
        simp
      have hm' : ∀ A B : Matrix (Fin n) (Fin n) ℝ, meanHsic (A.submatrix σ σ) (B.submatrix σ σ) = meanHsic A B := by
        intro A B
        unfold meanHsic
        rw [hm, hm]
      simp only [Option.map_some, gamOf, center_perm, hs, hv, hm']

theorem mu_lt (hn : 2 ≤ n) {X : Data n d} {K : Matrix (Fin n) (Fin n) ℝ} (h : kernelOf X = some K) : mu K < 1 := by
  obtain ⟨_, hd, hle, ⟨i, j, hij, hlt⟩, _⟩ := kernelOf_some h
  have hn1 : (1 : ℝ) < n := by exact_mod_cast (by omega : 1 < n)
  have hb : ∀ i : Fin n, ∑ j, (if i = j then (0 : ℝ) else 1) = n - 1 := by
    intro i
    have : ∀ j, (if i = j then (0 : ℝ) else 1) = 1 - if i = j then 1 else 0 := fun j => by split <;> norm_num
    simp only [this, Finset.sum_sub_distrib, Finset.sum_const, Finset.card_univ, Fintype.card_fin, nsmul_eq_mul, mul_one,
      Finset.sum_ite_eq, Finset.mem_univ, if_true]
  have hrow : ∀ a, ∑ b, (if a = b then (0 : ℝ) else K a b) ≤ n - 1 := by
    intro a
    rw [← hb a]
    refine Finset.sum_le_sum fun b _ => ?_
    split
    · exact le_refl _
    · exact hle a b
  have hrow' : ∑ b, (if i = b then (0 : ℝ) else K i b) < n - 1 := by
    rw [← hb i]
    refine Finset.sum_lt_sum (fun b _ => ?_) ⟨j, Finset.mem_univ j, ?_⟩
    · split
      · exact le_refl _
      · exact hle i b
    · rw [if_neg hij, if_neg hij]
      exact hlt
  have hsum : ∑ a, ∑ b, (if a = b then (0 : ℝ) else K a b) < n * (n - 1) := by
    have : ∑ _a : Fin n, ((n : ℝ) - 1) = n * (n - 1) := by
      simp
      ring
    rw [← this]
    exact Finset.sum_lt_sum (fun a _ => hrow a) ⟨i, Finset.mem_univ i, hrow'⟩
  unfold mu
  rw [div_div, div_lt_one (by nlinarith)]
  exact hsum

/-- C84. If the statistic of the HSIC test is a number it is not negative; it is NaN exactly if all rows of one of the two samples are equal; and
otherwise, from two rows on, the mean of the approximating distribution is positive. -/
theorem c84_range (ppf : ℝ → ℝ → ℝ → Option ℝ) (alpha : ℝ) (X : Data n d) (Y : Data n e) :
    ((hsicGam ppf alpha X Y).1 = none ↔ (∀ i j, X i = X j) ∨ ∀ i j, Y i = Y j) ∧
    (∀ s, (hsicGam ppf alpha X Y).1 = some s → 0 ≤ s) ∧
    ∀ wx wy, 2 ≤ n → width X = some wx → width Y = some wy → 0 < meanHsic (rbfDot X wx) (rbfDot Y wy) := by
  rw [hsicGam_eq]
  refine ⟨?_, ?_, ?_⟩
  · rw [← kernelOf_none, ← kernelOf_none]
    cases kernelOf X <;> cases kernelOf Y <;> simp [gamOf]
  · intro s hs
    cases hX : kernelOf X with
    | none => rw [hX] at hs; simp [gamOf] at hs
    | some K =>
      cases hY : kernelOf Y with
      | none => rw [hX, hY] at hs; simp [gamOf] at hs
      | some L =>
        rw [hX, hY] at hs
        simp only [gamOf, Option.some.injEq] at hs
        have hK := center_psd (kernelOf_some hX).1
        rw [← hs, statOf_eq (psd_symm hK)]
        exact div_nonneg (stat_nonneg hK (center_psd (kernelOf_some hY).1)) (Nat.cast_nonneg n)
  · intro wx wy hn hx hy
    have hX : kernelOf X = some (rbfDot X wx) := by rw [kernelOf, hx]; rfl
    have hY : kernelOf Y = some (rbfDot Y wy) := by rw [kernelOf, hy]; rfl
    have h1 := mu_lt hn hX
    have h2 := mu_lt hn hY
    have h3 : meanHsic (rbfDot X wx) (rbfDot Y wy) = (1 - mu (rbfDot X wx)) * (1 - mu (rbfDot Y wy)) / n := by
      unfold meanHsic
      congr 1
      ring
    rw [h3]
    have : (0 : ℝ) < n := by exact_mod_cast (by omega : 0 < n)
    exact div_pos (mul_pos (by linarith) (by linarith)) this

theorem hsicTest_eq (ppf : ℝ → ℝ → ℝ → Option ℝ) (alpha : ℝ) (X Y : Data n 1) : hsicTest ppf alpha X Y =
    match gamOf ppf alpha (kernelOf X) (kernelOf Y) with
    | (some s, some t) => if s < t then some true else if t < s then some false else none
    | _ => none := by
  unfold hsicTest
  rw [hsicGam_eq]
  rfl

/-- C85 fails for every sample of at most five rows: `test` returns `None`, whatever the data, the level and the quantile function are. -/
theorem c85_small (ppf : ℝ → ℝ → ℝ → Option ℝ) (alpha : ℝ) (hn : n ≤ 5) (X Y : Data n 1) : hsicTest ppf alpha X Y = none := by
  rw [hsicTest_eq]
  cases hX : kernelOf X with
  | none => rfl
  | some K =>
    cases hY : kernelOf Y with
    | none => rfl
    | some L =>
      have hv : varHsic (center K) (center L) = none ∨ varHsic (center K) (center L) = some 0 := by
        unfold varHsic
        split
        · exact Or.inl rfl
        · rename_i h
          right
          have : n = 4 ∨ n = 5 := by omega
          rcases this with rfl | rfl <;> norm_num
      rcases hv with hv | hv <;> simp [gamOf, hv]

/-- C85 fails for constant data of any length: `test` returns `None`. -/
theorem c85_const (ppf : ℝ → ℝ → ℝ → Option ℝ) (alpha : ℝ) (X Y : Data n 1) (h : (∀ i j, X i = X j) ∨ ∀ i j, Y i = Y j) :
    hsicTest ppf alpha X Y = none := by
  have h1 := (c84_range ppf alpha X Y).1.2 h
  unfold hsicTest
  split
  · rename_i s t hs
    rw [hs] at h1
    cases h1
  · rfl

/-- C85 is false. -/
theorem c85_false : ∃ X Y : Data 5 1, ∀ ppf alpha, hsicTest ppf alpha X Y ≠ some true ∧ hsicTest ppf alpha X Y ≠ some false :=
  ⟨fun i _ => i, fun i _ => i ^ 2, fun ppf alpha => by simp [c85_small ppf alpha (le_refl 5)]⟩

/-- C85, what holds. The full statement is "`test` returns a truth value for all data". It returns one from six rows on if no sample is constant,
some entry outside the diagonal of the product of the centred kernels is not zero, and the quantile of the gamma distribution with the two positive
parameters is a number other than the statistic; and then the value says whether the statistic is below the quantile. The mean of the gamma
distribution, the product of its parameters, is `n` times the mean of line 105. -/
theorem c85_partial (ppf : ℝ → ℝ → ℝ → Option ℝ) (alpha : ℝ) (hn : 6 ≤ n) (X Y : Data n 1) {K L : Matrix (Fin n) (Fin n) ℝ}
    {wx wy : ℝ} (hwx : width X = some wx) (hwy : width Y = some wy) (hK : K = center (rbfDot X wx)) (hL : L = center (rbfDot Y wy))
    (hv : ∃ i j, i ≠ j ∧ K i j * L i j ≠ 0)
    (hq : ∀ al bet, 0 < al → 0 < bet → ∃ q, ppf (1 - alpha) al bet = some q ∧ q ≠ (∑ i, ∑ j, K i j * L i j) / n) :
    ∃ al bet q, 0 < al ∧ 0 < bet ∧ al * bet = n * meanHsic (rbfDot X wx) (rbfDot Y wy) ∧ ppf (1 - alpha) al bet = some q ∧
      (hsicTest ppf alpha X Y = some true ↔ (∑ i, ∑ j, K i j * L i j) / n < q) ∧
      (hsicTest ppf alpha X Y = some false ↔ q < (∑ i, ∑ j, K i j * L i j) / n) ∧ hsicTest ppf alpha X Y ≠ none := by
  have hX : kernelOf X = some (rbfDot X wx) := by rw [kernelOf, hwx]; rfl
  have hY : kernelOf Y = some (rbfDot Y wy) := by rw [kernelOf, hwy]; rfl
  have hm := (c84_range ppf alpha X Y).2.2 wx wy (by omega) hwx hwy
  have hpK := psd_symm (center_psd (kernelOf_some hX).1)
  have hstat : statOf (center (rbfDot X wx)) (center (rbfDot Y wy)) = (∑ i, ∑ j, K i j * L i j) / n := by
    rw [statOf_eq hpK, hK, hL]
    rfl
  have hn6 : (6 : ℝ) ≤ n := by exact_mod_cast hn
  obtain ⟨v, hvv, hv0⟩ : ∃ v, varHsic (center (rbfDot X wx)) (center (rbfDot Y wy)) = some v ∧ 0 < v := by
    unfold varHsic
    rw [if_neg (by omega)]
    refine ⟨_, rfl, ?_⟩
    have hb : 0 < varBase (center (rbfDot X wx)) (center (rbfDot Y wy)) := by
      obtain ⟨i, j, hij, hne⟩ := hv
      rw [hK, hL] at hne
      unfold varBase
      rw [← Finset.sum_sub_distrib]
      refine div_pos (div_pos ?_ (by linarith)) (by linarith)
      have hdiag : ∀ i : Fin n, (center (rbfDot X wx) i i * center (rbfDot Y wy) i i / 6) ^ 2 ≤
          ∑ j, (center (rbfDot X wx) i j * center (rbfDot Y wy) i j / 6) ^ 2 := fun i =>
        Finset.single_le_sum (f := fun j => (center (rbfDot X wx) i j * center (rbfDot Y wy) i j / 6) ^ 2) (fun j _ => sq_nonneg _)
          (Finset.mem_univ i)
      refine Finset.sum_pos' (fun i _ => sub_nonneg.2 (hdiag i)) ⟨i, Finset.mem_univ i, ?_⟩
      have h2 : (center (rbfDot X wx) i i * center (rbfDot Y wy) i i / 6) ^ 2 + (center (rbfDot X wx) i j * center (rbfDot Y wy) i j / 6) ^ 2 ≤
          ∑ j, (center (rbfDot X wx) i j * center (rbfDot Y wy) i j / 6) ^ 2 := Finset.add_le_sum (f := fun j => (center (rbfDot X wx) i j * center (rbfDot Y wy) i j / 6) ^ 2)
        (fun j _ => sq_nonneg _) (Finset.mem_univ i) (Finset.mem_univ j) hij
      have h3 : 0 < (center (rbfDot X wx) i j * center (rbfDot Y wy) i j / 6) ^ 2 := by positivity
      linarith
    have h4 : (0 : ℝ) < n - 4 := by linarith
    have h5 : (0 : ℝ) < n - 5 := by linarith
    have h1 : (0 : ℝ) < n - 1 := by linarith
    have h2 : (0 : ℝ) < n - 2 := by linarith
    have h3 : (0 : ℝ) < n - 3 := by linarith
    positivity
  have hn0 : (0 : ℝ) < n := by linarith
  obtain ⟨q, hq1, hq2⟩ := hq (meanHsic (rbfDot X wx) (rbfDot Y wy) ^ 2 / v) (v * n / meanHsic (rbfDot X wx) (rbfDot Y wy))
    (by positivity) (by positivity)
  have ht : hsicTest ppf alpha X Y = if (∑ i, ∑ j, K i j * L i j) / n < q then some true
      else if q < (∑ i, ∑ j, K i j * L i j) / n then some false else none := by
    rw [hsicTest_eq, hX, hY]
    simp only [gamOf, hvv, hstat]
    rw [if_neg (by rw [not_or]; exact ⟨hv0.ne', hm.ne'⟩), hq1]
  refine ⟨_, _, q, ?_, ?_, ?_, hq1, ?_⟩
  · positivity
  · positivity
  · field_simp
  refine ⟨?_, ?_, ?_⟩ <;> rw [ht] <;> rcases lt_trichotomy ((∑ i, ∑ j, K i j * L i j) / (n : ℝ)) q with h | h | h
  · simp [h]
  · exact absurd h.symm hq2
  · simp [h, not_lt.2 h.le]
  · simp [h, not_lt.2 h.le]
  · exact absurd h.symm hq2
  · simp [h, not_lt.2 h.le]
  · simp [h]
  · exact absurd h.symm hq2
  · simp [h, not_lt.2 h.le]

section examples

/-- Six rows. -/
def exA : Data 6 1 := fun i _ => i

/-- Six rows, a parabola. -/
def exB : Data 6 1 := fun i _ => (i : ℝ) ^ 2

example (ppf : ℝ → ℝ → ℝ → Option ℝ) : hsicGam ppf (1 / 20) exA exB = hsicGam ppf (1 / 20) exB exA := c84_symm ppf _ exA exB

example (ppf : ℝ → ℝ → ℝ → Option ℝ) : hsicGam ppf (1 / 20) (fun i k => -3 * exA i k + 1 : Data 6 1) (fun i k => 2 * exB i k + 5 : Data 6 1) =
    hsicGam ppf (1 / 20) exA exB := c84_affine ppf _ exA exB (by norm_num) (by norm_num) (fun _ => 1) (fun _ => 5)

example (ppf : ℝ → ℝ → ℝ → Option ℝ) : hsicGam ppf (1 / 20) (fun i k => exA (Equiv.swap 0 5 i) k : Data 6 1) (fun i k => exB (Equiv.swap 0 5 i) k : Data 6 1) =
    hsicGam ppf (1 / 20) exA exB := c84_perm ppf _ exA exB _

theorem exA_not_const : ¬ ∀ i j, exA i = exA j := fun h => by
  have := congrFun (h 0 1) 0
  norm_num [exA] at this

theorem exB_not_const : ¬ ∀ i j, exB i = exB j := fun h => by
  have := congrFun (h 0 1) 0
  norm_num [exB] at this

example (ppf : ℝ → ℝ → ℝ → Option ℝ) : ∃ s, (hsicGam ppf (1 / 20) exA exB).1 = some s ∧ 0 ≤ s := by
  obtain ⟨h1, h2, _⟩ := c84_range ppf (1 / 20) exA exB
  have : (hsicGam ppf (1 / 20) exA exB).1 ≠ none := by
    rw [Ne, h1]
    exact not_or.2 ⟨exA_not_const, exB_not_const⟩
  obtain ⟨s, hs⟩ := Option.ne_none_iff_exists'.1 this
  exact ⟨s, hs, h2 s hs⟩

example (ppf : ℝ → ℝ → ℝ → Option ℝ) : hsicTest ppf (1 / 20) exA (fun _ _ => 7) = none := c85_const ppf _ exA _ (Or.inr fun _ _ => rfl)

example (ppf : ℝ → ℝ → ℝ → Option ℝ) : hsicTest ppf (1 / 20) (fun i _ => i : Data 5 1) (fun i _ => i ^ 2 : Data 5 1) = none :=
  c85_small ppf _ (le_refl 5) _ _

/-- The test of a sample against itself with a quantile function that always gives -1 is `False`. -/
example : hsicTest (fun _ _ _ => some (-1)) (1 / 20) exA exA = some false := by
  obtain ⟨w, hw⟩ : ∃ w, width exA = some w := by
    have : kernelOf exA ≠ none := by
      rw [Ne, kernelOf_none]
      exact exA_not_const
    cases h : width exA with
    | none => exact absurd (by rw [kernelOf, h]; rfl) this
    | some w => exact ⟨w, rfl⟩
  have hk : kernelOf exA = some (rbfDot exA w) := by rw [kernelOf, hw]; rfl
  have hpsd := center_psd (kernelOf_some hk).1
  have hs : 0 ≤ (∑ i, ∑ j, center (rbfDot exA w) i j * center (rbfDot exA w) i j) / (6 : Nat) :=
    div_nonneg (stat_nonneg hpsd hpsd) (Nat.cast_nonneg 6)
  have hv : ∃ i j, i ≠ j ∧ center (rbfDot exA w) i j * center (rbfDot exA w) i j ≠ 0 := by
    by_contra hno
    push Not at hno
    have hz : ∀ i j, i ≠ j → center (rbfDot exA w) i j = 0 := fun i j hij => mul_self_eq_zero.1 (hno i j hij)
    have h0 : center (rbfDot exA w) = 0 := by
      have hc : center (rbfDot exA w) = centerKernelMatrix (rbfDot exA w) := (centerKernelMatrix_eq (psd_symm (kernelOf_some hk).1)).symm
      have hcol := (c38_center_exact (rbfDot exA w) (by decide)).1
      ext i j
      by_cases hij : i = j
      · subst hij
        have := hcol i
        rw [← hc] at this
        rw [Finset.sum_eq_single i (fun b _ hb => hz b i hb) (by simp)] at this
        exact this
      · exact hz i j hij
    rw [center_zero (by decide) (psd_symm (kernelOf_some hk).1) (kernelOf_some hk).2.1] at h0
    obtain ⟨i, j, _, h⟩ := (kernelOf_some hk).2.2.2.1
    exact h.ne (h0 i j)
  obtain ⟨_, _, q, _, _, _, _, _, h2, h3⟩ := c85_partial (fun _ _ _ => some (-1)) (1 / 20) (le_refl 6) exA exA hw hw rfl rfl hv
    (fun al bet _ _ => ⟨-1, rfl, by intro h; linarith⟩)
  cases h : hsicTest (fun _ _ _ => some (-1)) (1 / 20) exA exA with
  | none => exact absurd h h3
  | some b =>
    cases b with
    | false => rfl
    | true =>
      exfalso
      unfold hsicTest at h
      split at h
      · rename_i s t hst
        have h1 := (c84_range (fun _ _ _ => some (-1)) (1 / 20) exA exA).2.1 s (by rw [hst])
        have h4 : t = -1 := by
          rw [hsicGam_eq, hk] at hst
          simp only [gamOf, Prod.mk.injEq] at hst
          have := hst.2
          split at this
          · cases this
          · split at this
            · cases this
            · cases this
              rfl
        rw [if_neg (by rw [h4]; linarith)] at h
        split at h <;> cases h
      · cases h

end examples

end Cdmir.KTest
