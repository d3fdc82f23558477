import Verif.Props.KernelPower
import Verif.Props.HsicV

/-! C179: the permutation test of HSICPermutationTestObject.py on drawn records. It finds every dependence, and rejects independence with at most the wanted
probability, except through ties. -/

namespace Cdmir.ShuffleTest
open BigOperators KTest HsicTest Finset

variable {n d e m : Nat}

/-- The statistic that the two settings of `unbiased` use. -/
noncomputable def statOf (unbiased : Bool) (K L : Mat n) : Option ℝ := if unbiased then (uStat K L).1 else some (vStat K L)

theorem zeroDiag_twice (K : Mat n) : zeroDiag (zeroDiag K) = zeroDiag K := by
  ext i j
  by_cases h : i = j
  · subst h; simp [zeroDiag]
  · simp [zeroDiag, h]

theorem zeroDiag_shuffle (pp : Equiv.Perm (Fin n)) (K : Mat n) : zeroDiag (shuffle pp (zeroDiag K)) = zeroDiag (shuffle pp K) := by
  ext i j
  by_cases h : i = j
  · subst h; simp [zeroDiag]
  · simp [zeroDiag, shuffle, h]

theorem perm_eq (unbiased : Bool) (perms : List (Equiv.Perm (Fin n))) (K L : Mat n) :
    permutationTest unbiased perms K L = shareAbove (perms.map fun pp => statOf unbiased K (shuffle pp L)) (statOf unbiased K L) := by
  unfold permutationTest withShuffles statOf
  cases unbiased
  · simp
  · simp only [uStat, if_true, Bool.false_eq_true, if_false, zeroDiag_twice, zeroDiag_shuffle]

/-- The sum over all pairs by the three sums of the unbiased statistic. -/
theorem v_value {K L : Mat n} (hn : n ≠ 0) (hK : K.IsSymm) (hL : L.IsSymm) : vStat K L =
    (∑ i, ∑ j, K i j * L i j) + (∑ i, ∑ j, K i j) * (∑ i, ∑ j, L i j) / (n : ℝ) ^ 2 - 2 * (∑ i, (∑ j, K i j) * ∑ j, L i j) / n := by
  have hn' : (n : ℝ) ≠ 0 := by exact_mod_cast hn
  have hc : ∀ {K : Mat n}, K.IsSymm → ∀ i, colSums K i = ∑ j, K i j := fun hK i => Finset.sum_congr rfl fun j _ => hK.apply i j
  have hv : ∀ {K : Mat n}, K.IsSymm → vecSum (colSums K) = ∑ i, ∑ j, K i j := fun hK => Finset.sum_congr rfl fun i _ => hc hK i
  unfold vStat centerKernelMatrix
  simp only [hc hK, hc hL, hv hK, hv hL]
  obtain ⟨r, hr⟩ : ∃ r : Fin n → ℝ, r = fun i => ∑ j, K i j := ⟨_, rfl⟩
  obtain ⟨t, ht⟩ : ∃ t : Fin n → ℝ, t = fun i => ∑ j, L i j := ⟨_, rfl⟩
  have hr1 : ∀ i, ∑ j, K i j = r i := fun i => by rw [hr]
  have ht1 : ∀ i, ∑ j, L i j = t i := fun i => by rw [ht]
  have hr2 : ∀ j, ∑ i, K i j = r j := fun j => by rw [hr]; exact Finset.sum_congr rfl fun i _ => hK.apply j i
  have ht2 : ∀ j, ∑ i, L i j = t j := fun j => by rw [ht]; exact Finset.sum_congr rfl fun i _ => hL.apply j i
  simp only [hr1, ht1]
  obtain ⟨R, hR⟩ : ∃ R, R = ∑ i, r i := ⟨_, rfl⟩
  obtain ⟨S, hS⟩ : ∃ S, S = ∑ i, t i := ⟨_, rfl⟩
  rw [← hR, ← hS]
  have e1 : ∀ i j, (K i j - (r j + r i) / n + R / (n : ℝ) ^ 2) * (L i j - (t j + t i) / n + S / (n : ℝ) ^ 2) =
      K i j * L i j - K i j * t j / n - K i j * (t i / n) + K i j * (S / (n : ℝ) ^ 2) - L i j * r j / n - L i j * (r i / n) + L i j * (R / (n : ℝ) ^ 2) +
      (r j + r i) * (t j + t i) / (n : ℝ) ^ 2 - (r j + r i) * (S / (n : ℝ) ^ 3) - (t j + t i) * (R / (n : ℝ) ^ 3) + R * S / (n : ℝ) ^ 4 := fun i j => by
    field_simp
    ring
  simp only [e1, Finset.sum_add_distrib, Finset.sum_sub_distrib, ← Finset.sum_mul, ← Finset.sum_div]
  have s1 : ∑ i, ∑ j, K i j * t j = ∑ i, r i * t i := by
    rw [Finset.sum_comm]
    simp only [← Finset.sum_mul, hr2]
  have s2 : ∑ i, ∑ j, L i j * r j = ∑ i, r i * t i := by
    rw [Finset.sum_comm]
    simp only [← Finset.sum_mul, ht2]
    exact Finset.sum_congr rfl fun i _ => mul_comm _ _
  have s3 : ∑ i, ∑ j, (r j + r i) * (t j + t i) = 2 * n * ∑ i, r i * t i + 2 * R * S := by
    have : ∀ i j, (r j + r i) * (t j + t i) = r j * t j + r j * t i + r i * t j + r i * t i := fun i j => by ring
    simp only [this, Finset.sum_add_distrib, ← Finset.sum_mul, ← Finset.mul_sum, Finset.sum_const, Finset.card_univ, Fintype.card_fin, nsmul_eq_mul, ← hR, ← hS]
    have s0 : ∑ i, (n : ℝ) * r i * t i = n * ∑ i, r i * t i := by rw [Finset.mul_sum]; exact Finset.sum_congr rfl fun i _ => by ring
    simp only [s0]
    ring
  have s4 : ∑ i, r i * (t i / n) = (∑ i, r i * t i) / n := by rw [Finset.sum_div]; exact Finset.sum_congr rfl fun i _ => by ring
  have s5 : ∑ i, t i * (r i / n) = (∑ i, r i * t i) / n := by rw [Finset.sum_div]; exact Finset.sum_congr rfl fun i _ => by ring
  simp only [hr1, ht1, s1, s2, s3, s4, s5, ← hR, ← hS, Finset.sum_const, Finset.card_univ, Fintype.card_fin, nsmul_eq_mul]
  rw [← Finset.mul_sum, ← Finset.mul_sum, ← hR, ← hS]
  field_simp
  ring

/-- The difference of the two statistics, the first divided by the squared number of records. -/
noncomputable def gap (n : Nat) : ℝ :=
  ((n : ℝ) ^ 2 / (n * (n - 3)) - 1) + ((n : ℝ) ^ 4 / (n * (n - 3) * (n - 1) * (n - 2)) - 1) + 2 * ((n : ℝ) ^ 3 / (n * (n - 3) * (n - 2)) - 1) + 7 / n

theorem near_real {N S1 S1' S2 S2' S3 S3' : ℝ} (hN : 4 ≤ N) (h1 : |S1| ≤ N ^ 2) (d1 : |S1' - S1| ≤ N) (h2 : |S2| ≤ N ^ 4) (d2 : |S2' - S2| ≤ 2 * N ^ 3)
    (h3 : |S3| ≤ N ^ 3) (d3 : |S3' - S3| ≤ 2 * N ^ 2) :
    |(S1 / (N * (N - 3)) + S2 / (N * (N - 3) * (N - 1) * (N - 2)) - 2 * S3 / (N * (N - 3) * (N - 2))) - (S1' + S2' / N ^ 2 - 2 * S3' / N) / N ^ 2| ≤
      (N ^ 2 / (N * (N - 3)) - 1) + (N ^ 4 / (N * (N - 3) * (N - 1) * (N - 2)) - 1) + 2 * (N ^ 3 / (N * (N - 3) * (N - 2)) - 1) + 7 / N := by
  have p0 : 0 < N := by linarith
  have p1 : 0 < N - 1 := by linarith
  have p2 : 0 < N - 2 := by linarith
  have p3 : 0 < N - 3 := by linarith
  have key : ∀ {S S' q : ℝ} (k : ℕ) {c : ℝ}, 0 < q → q ≤ N ^ k → |S| ≤ N ^ k → |S' - S| ≤ c * N ^ k / N → |S / q - S' / N ^ k| ≤ (N ^ k / q - 1) + c / N := by
    intro S S' q k c hq hqN hS hd
    have hk : 0 < N ^ k := by positivity
    have e : S / q - S' / N ^ k = S * (1 / q - 1 / N ^ k) - (S' - S) / N ^ k := by ring
    rw [e]
    refine (abs_sub _ _).trans ?_
    have h0 : 0 ≤ 1 / q - 1 / N ^ k := sub_nonneg.2 (one_div_le_one_div_of_le hq hqN)
    rw [abs_mul, abs_of_nonneg h0, abs_div, abs_of_pos hk]
    have a1 : |S| * (1 / q - 1 / N ^ k) ≤ N ^ k * (1 / q - 1 / N ^ k) := mul_le_mul_of_nonneg_right hS h0
    have a2 : N ^ k * (1 / q - 1 / N ^ k) = N ^ k / q - 1 := by field_simp
    have a3 : |S' - S| / N ^ k ≤ c / N := by
      rw [div_le_iff₀ hk]
      refine hd.trans (le_of_eq ?_)
      ring
    linarith
  have k1 := key 2 (c := 1) (by positivity : 0 < N * (N - 3)) (by nlinarith) h1 (by refine d1.trans (le_of_eq ?_); field_simp)
  have k2 := key 4 (c := 2) (by positivity : 0 < N * (N - 3) * (N - 1) * (N - 2)) (by
    calc N * (N - 3) * (N - 1) * (N - 2) ≤ N * N * N * N := by gcongr <;> linarith
      _ = N ^ 4 := by ring) h2 (by refine d2.trans (le_of_eq ?_); field_simp)
  have k3 := key 3 (c := 2) (by positivity : 0 < N * (N - 3) * (N - 2)) (by
    calc N * (N - 3) * (N - 2) ≤ N * N * N := by gcongr <;> linarith
      _ = N ^ 3 := by ring) h3 (by refine d3.trans (le_of_eq ?_); field_simp)
  have e : (S1 / (N * (N - 3)) + S2 / (N * (N - 3) * (N - 1) * (N - 2)) - 2 * S3 / (N * (N - 3) * (N - 2))) - (S1' + S2' / N ^ 2 - 2 * S3' / N) / N ^ 2 =
      (S1 / (N * (N - 3)) - S1' / N ^ 2) + (S2 / (N * (N - 3) * (N - 1) * (N - 2)) - S2' / N ^ 4) - 2 * (S3 / (N * (N - 3) * (N - 2)) - S3' / N ^ 3) := by
    field_simp
    ring
  rw [e]
  refine (abs_sub _ _).trans ?_
  rw [abs_mul, abs_two]
  have := abs_add_le (S1 / (N * (N - 3)) - S1' / N ^ 2) (S2 / (N * (N - 3) * (N - 1) * (N - 2)) - S2' / N ^ 4)
  have e7 : 7 / N = 1 / N + 2 / N + 2 * (2 / N) := by ring
  rw [e7]
  linarith

theorem sum_le {f : Fin n → ℝ} {c : ℝ} (h : ∀ i, |f i| ≤ c) : |∑ i, f i| ≤ n * c := by
  refine (Finset.abs_sum_le_sum_abs _ _).trans ((Finset.sum_le_sum fun i _ => h i).trans ?_)
  simp

theorem u_near (hn : 4 ≤ n) {K L : Mat n} (hK : K.IsSymm) (hL : L.IsSymm) (hK1 : ∀ i j, |K i j| ≤ 1) (hL1 : ∀ i j, |L i j| ≤ 1) :
    ∃ u, (uStat K L).1 = some u ∧ |u - vStat K L / (n : ℝ) ^ 2| ≤ gap n := by
  have hn' : (4 : ℝ) ≤ n := by exact_mod_cast hn
  have hz : ∀ {K : Mat n}, (∀ i j, |K i j| ≤ 1) → ∀ i j, |zeroDiag K i j| ≤ 1 := fun h i j => by
    by_cases hij : i = j
    · subst hij; rw [zeroDiag_diag]; simp
    · rw [zeroDiag_off _ hij]; exact h i j
  have hr : ∀ {K : Mat n}, (∀ i j, |K i j| ≤ 1) → ∀ i, |row K i| ≤ n := fun h i => by
    have := sum_le (hz h i)
    rwa [mul_one] at this
  have hR : ∀ {K : Mat n}, (∀ i j, |K i j| ≤ 1) → ∀ i, |∑ j, K i j| ≤ n := fun h i => by
    have := sum_le (h i)
    rwa [mul_one] at this
  have hd : ∀ (K : Mat n) i, ∑ j, K i j - row K i = K i i := fun K i => by
    have : row K i = ∑ j, K i j - K i i := by
      unfold row
      rw [← sum_off i]
      rfl
    rw [this]; ring
  refine ⟨_, u_value hn hK hL, ?_⟩
  rw [v_value (by omega) hK hL]
  have hmul : ∀ {a b : ℝ} {c c' : ℝ}, |a| ≤ c → |b| ≤ c' → |a * b| ≤ c * c' := fun ha hb => by
    rw [abs_mul]; exact mul_le_mul ha hb (abs_nonneg _) ((abs_nonneg _).trans ha)
  have hprod : ∀ {a b a' b' c D D' : ℝ}, |a - a'| ≤ D → |b| ≤ c → |a'| ≤ c → |b - b'| ≤ D → 2 * (D * c) ≤ D' → |a * b - a' * b'| ≤ D' := fun {a b a' b' c D D'} h1 h2 h3 h4 h5 => by
    have : a * b - a' * b' = (a - a') * b + a' * (b - b') := by ring
    rw [this]
    have a1 := hmul h1 h2
    have a2 := hmul h3 h4
    have := abs_add_le ((a - a') * b) (a' * (b - b'))
    linarith
  refine near_real hn' ?_ ?_ ?_ ?_ ?_ ?_
  · have := sum_le fun i => sum_le fun j => hmul (hz hK1 i j) (hz hL1 i j)
    refine this.trans (le_of_eq ?_); ring
  · rw [← Finset.sum_sub_distrib]
    have := sum_le (n := n) (c := 1) (f := fun i => ∑ j, K i j * L i j - ∑ j, zeroDiag K i j * zeroDiag L i j) fun i => by
      rw [← Finset.sum_sub_distrib, Finset.sum_eq_single i]
      · rw [zeroDiag_diag, zero_mul, sub_zero]
        simpa using hmul (hK1 i i) (hL1 i i)
      · intro j _ hj
        rw [zeroDiag_off _ hj.symm, zeroDiag_off _ hj.symm, sub_self]
      · simp
    rwa [mul_one] at this
  · have := hmul (sum_le (hr hK1)) (sum_le (hr hL1))
    refine this.trans (le_of_eq ?_); ring
  · have hdd : ∀ {K : Mat n}, (∀ i j, |K i j| ≤ 1) → |∑ i, ∑ j, K i j - ∑ i, row K i| ≤ n := fun {K} h => by
      rw [← Finset.sum_sub_distrib]
      have := sum_le (n := n) (c := 1) (f := fun i => ∑ j, K i j - row K i) fun i => by rw [hd]; exact h i i
      rwa [mul_one] at this
    exact hprod (hdd hK1) (sum_le (hR hL1)) (sum_le (hr hK1)) (hdd hL1) (le_of_eq (by ring))
  · have := sum_le fun i => hmul (hr hK1 i) (hr hL1 i)
    refine this.trans (le_of_eq ?_); ring
  · rw [← Finset.sum_sub_distrib]
    have := sum_le (n := n) (c := 2 * n) (f := fun i => (∑ j, K i j) * (∑ j, L i j) - row K i * row L i) fun i =>
      hprod (D := 1) (by rw [hd]; exact hK1 i i) (hR hL1 i) (hr hK1 i) (by rw [hd]; exact hL1 i i) (le_of_eq (by ring))
    refine this.trans (le_of_eq ?_); ring

theorem sum_shuffle (hn : 2 ≤ n) (A B : Mat n) (hA : ∀ i, ∑ j, A i j = 0) (hB : ∀ i, ∑ j, B i j = 0) :
    ∑ σ : Equiv.Perm (Fin n), ∑ i, ∑ j, A i j * B (σ i) (σ j) = (n.factorial : ℝ) * (A.trace * B.trace / ((n : ℝ) - 1)) := by
  have hn' : (2 : ℝ) ≤ n := by exact_mod_cast hn
  obtain ⟨F, hF⟩ : ∃ F : Fin n → Fin n → ℝ, F = fun i j => ∑ σ : Equiv.Perm (Fin n), B (σ i) (σ j) := ⟨_, rfl⟩
  have inv : ∀ (τ : Equiv.Perm (Fin n)) i j, F (τ i) (τ j) = F i j := fun τ i j => by
    rw [hF]
    exact Fintype.sum_equiv (Equiv.mulRight τ) _ _ fun σ => rfl
  obtain ⟨f, hf⟩ : ∃ f, ∀ i, F i i = f := ⟨F ⟨0, by omega⟩ ⟨0, by omega⟩, fun i => by
    have := inv (Equiv.swap i ⟨0, by omega⟩) i i
    rw [Equiv.swap_apply_left] at this
    exact this.symm⟩
  obtain ⟨g, hg⟩ : ∃ g, ∀ i j, i ≠ j → F i j = g := by
    refine ⟨F ⟨0, by omega⟩ ⟨1, by omega⟩, fun i j hij => ?_⟩
    obtain ⟨τ, h1, h2⟩ : ∃ τ : Equiv.Perm (Fin n), τ i = ⟨0, by omega⟩ ∧ τ j = ⟨1, by omega⟩ := by
      have a : Function.Injective ![i, j] := by
        intro x y h
        fin_cases x <;> fin_cases y <;> simp_all
      have b : Function.Injective (![⟨0, by omega⟩, ⟨1, by omega⟩] : Fin 2 → Fin n) := by
        intro x y h
        fin_cases x <;> fin_cases y <;> simp_all
      obtain ⟨τ, hτ⟩ := Equiv.Perm.exists_extending_pair ![i, j] (![⟨0, by omega⟩, ⟨1, by omega⟩] : Fin 2 → Fin n) a b
      exact ⟨τ, hτ 0, hτ 1⟩
    rw [← h1, ← h2, inv]
  have hrow : ∀ i, f + ((n : ℝ) - 1) * g = 0 := fun i => by
    have h0 : ∑ j, F i j = 0 := by
      rw [hF]
      simp only
      rw [Finset.sum_comm]
      refine Finset.sum_eq_zero fun σ _ => ?_
      rw [Equiv.sum_comp σ fun j => B (σ i) j]
      exact hB _
    rw [← Finset.add_sum_erase _ _ (Finset.mem_univ i), hf, Finset.sum_congr rfl fun j hj => hg i j (Finset.ne_of_mem_erase hj).symm, Finset.sum_const,
      Finset.card_erase_of_mem (Finset.mem_univ i), Finset.card_univ, Fintype.card_fin, nsmul_eq_mul, Nat.cast_sub (by omega)] at h0
    simpa using h0
  have htr : (n : ℝ) * f = n.factorial * B.trace := by
    have h0 : ∑ i, F i i = n.factorial * B.trace := by
      rw [hF]
      simp only
      rw [Finset.sum_comm]
      have : ∀ σ : Equiv.Perm (Fin n), ∑ i, B (σ i) (σ i) = B.trace := fun σ => Equiv.sum_comp σ fun i => B i i
      simp only [this, Finset.sum_const, Finset.card_univ, Fintype.card_perm, Fintype.card_fin, nsmul_eq_mul]
    simp only [hf, Finset.sum_const, Finset.card_univ, Fintype.card_fin, nsmul_eq_mul] at h0
    exact h0
  have h1 : ∑ σ : Equiv.Perm (Fin n), ∑ i, ∑ j, A i j * B (σ i) (σ j) = ∑ i, ∑ j, A i j * F i j := by
    rw [Finset.sum_comm, hF]
    refine Finset.sum_congr rfl fun i _ => ?_
    rw [Finset.sum_comm]
    exact Finset.sum_congr rfl fun j _ => (Finset.mul_sum ..).symm
  have h2 : ∀ i j, A i j * F i j = A i j * g + if i = j then A i j * (f - g) else 0 := fun i j => by
    by_cases h : i = j
    · subst h; rw [hf, if_pos rfl]; ring
    · rw [hg i j h, if_neg h, add_zero]
  rw [h1]
  simp only [h2, Finset.sum_add_distrib, ← Finset.sum_mul, hA, Finset.sum_ite_eq, Finset.mem_univ, if_true]
  have h3 := hrow ⟨0, by omega⟩
  have h4 : g = -f / ((n : ℝ) - 1) := by
    rw [eq_div_iff (by linarith)]; linarith
  have h5 : f = n.factorial * B.trace / n := by rw [eq_div_iff (by linarith)]; linarith
  rw [Finset.sum_const_zero, zero_mul, zero_add]
  change A.trace * (f - g) = _
  rw [h4, h5]
  have : (n : ℝ) - 1 ≠ 0 := by linarith
  have : (n : ℝ) ≠ 0 := by linarith
  field_simp
  ring

theorem center_shuffle (σ : Equiv.Perm (Fin n)) (L : Mat n) (i j : Fin n) : centerKernelMatrix (shuffle σ L) i j = centerKernelMatrix L (σ i) (σ j) := by
  have h1 : ∀ j, colSums (shuffle σ L) j = colSums L (σ j) := fun j => Equiv.sum_comp σ fun i => L i (σ j)
  have h2 : vecSum (colSums (shuffle σ L)) = vecSum (colSums L) := by
    unfold vecSum
    simp only [h1]
    exact Equiv.sum_comp σ fun j => colSums L j
  unfold centerKernelMatrix
  simp only [h1, h2]
  rfl

theorem center_row (hn : n ≠ 0) {K : Mat n} (hK : K.IsSymm) (i : Fin n) : ∑ j, centerKernelMatrix K i j = 0 := by
  have hn' : (n : ℝ) ≠ 0 := by exact_mod_cast hn
  have h1 : ∑ j, K i j = colSums K i := Finset.sum_congr rfl fun j _ => hK.apply j i
  unfold centerKernelMatrix
  simp only [Finset.sum_add_distrib, Finset.sum_sub_distrib, ← Finset.sum_div, Finset.sum_const, Finset.card_univ, Fintype.card_fin, nsmul_eq_mul, h1]
  rw [show ∑ x, colSums K x = vecSum (colSums K) from rfl]
  field_simp
  ring

/-- Few shuffles have a great statistic. -/
theorem few_great (hn : 2 ≤ n) {K L : Mat n} (hK : K.PosSemidef) (hL : L.PosSemidef) (hK1 : ∀ i j, |K i j| ≤ 1) (hL1 : ∀ i j, |L i j| ≤ 1) {c : ℝ} (hc : 0 < c) :
    ((univ.filter fun σ : Equiv.Perm (Fin n) => c * (n : ℝ) ^ 2 ≤ vStat K (shuffle σ L)).card : ℝ) ≤ n.factorial * (16 / (c * ((n : ℝ) - 1))) := by
  have hn' : (2 : ℝ) ≤ n := by exact_mod_cast hn
  have hKs : K.IsSymm := by have := hK.isHermitian; rwa [Matrix.IsHermitian, Matrix.conjTranspose_eq_transpose_of_trivial] at this
  have hLs : L.IsSymm := by have := hL.isHermitian; rwa [Matrix.IsHermitian, Matrix.conjTranspose_eq_transpose_of_trivial] at this
  have h0 : ∀ σ : Equiv.Perm (Fin n), 0 ≤ vStat K (shuffle σ L) := fun σ => c145_nonneg hK (hL.submatrix σ)
  have hsum : ∑ σ : Equiv.Perm (Fin n), vStat K (shuffle σ L) = n.factorial * ((centerKernelMatrix K).trace * (centerKernelMatrix L).trace / ((n : ℝ) - 1)) := by
    rw [← sum_shuffle hn _ _ (center_row (by omega) hKs) (center_row (by omega) hLs)]
    unfold vStat
    simp only [center_shuffle]
  have e : ∀ {K : Mat n}, K.PosSemidef → K.IsSymm → (∀ i j, |K i j| ≤ 1) → 0 ≤ (centerKernelMatrix K).trace ∧ (centerKernelMatrix K).trace ≤ 4 * n := fun hK hs h1 => by
    rw [centerKernelMatrix_eq fun i j => hs.apply j i]
    exact ⟨(center_psd hK).trace_nonneg, trace_center_le h1⟩
  obtain ⟨a0, a1⟩ := e hK hKs hK1
  obtain ⟨b0, b1⟩ := e hL hLs hL1
  have h1 : ((univ.filter fun σ : Equiv.Perm (Fin n) => c * (n : ℝ) ^ 2 ≤ vStat K (shuffle σ L)).card : ℝ) * (c * (n : ℝ) ^ 2) ≤ ∑ σ : Equiv.Perm (Fin n), vStat K (shuffle σ L) := by
    calc _ = ∑ _σ ∈ univ.filter fun σ : Equiv.Perm (Fin n) => c * (n : ℝ) ^ 2 ≤ vStat K (shuffle σ L), c * (n : ℝ) ^ 2 := by rw [Finset.sum_const, nsmul_eq_mul]
      _ ≤ ∑ σ ∈ univ.filter fun σ : Equiv.Perm (Fin n) => c * (n : ℝ) ^ 2 ≤ vStat K (shuffle σ L), vStat K (shuffle σ L) :=
        Finset.sum_le_sum fun σ hσ => (Finset.mem_filter.1 hσ).2
      _ ≤ _ := Finset.sum_le_sum_of_subset_of_nonneg (Finset.filter_subset _ _) fun σ _ _ => h0 σ
  rw [hsum] at h1
  have h2 : (centerKernelMatrix K).trace * (centerKernelMatrix L).trace ≤ 16 * (n : ℝ) ^ 2 := by
    have := mul_le_mul a1 b1 b0 (by positivity)
    linarith
  have p1 : 0 < (n : ℝ) - 1 := by linarith
  have h3 : (n.factorial : ℝ) * ((centerKernelMatrix K).trace * (centerKernelMatrix L).trace / ((n : ℝ) - 1)) ≤ n.factorial * (16 * (n : ℝ) ^ 2 / ((n : ℝ) - 1)) := by
    gcongr
  have h4 := h1.trans h3
  rw [← le_div_iff₀ (by positivity)] at h4
  refine h4.trans (le_of_eq ?_)
  field_simp

theorem share_least (null : List (Option ℝ)) (stat : Option ℝ) (h : ∀ x ∈ null, gt x stat = false) : shareAbove null stat = 1 / (1 + (null.length : ℝ)) := by
  unfold shareAbove
  rw [List.countP_eq_zero.2 fun x hx => by simp [h x hx]]
  simp

open MeasureTheory ProbabilityTheory Filter
open scoped Topology

theorem gap_tendsto : Tendsto gap atTop (𝓝 0) := by
  have h1 : ∀ a : ℝ, Tendsto (fun N : ℕ => (N : ℝ) / ((N : ℝ) - a)) atTop (𝓝 1) := fun a => by
    have : Tendsto (fun N : ℕ => 1 + a / ((N : ℝ) - a)) atTop (𝓝 (1 + 0)) :=
      tendsto_const_nhds.add (Tendsto.const_div_atTop (tendsto_atTop_add_const_right _ (-a) tendsto_natCast_atTop_atTop) a)
    rw [add_zero] at this
    refine this.congr' ?_
    filter_upwards [(tendsto_natCast_atTop_atTop (R := ℝ)).eventually (eventually_gt_atTop a)] with N hN
    have : (N : ℝ) - a ≠ 0 := by linarith
    field_simp
    ring
  have h7 : Tendsto (fun N : ℕ => 7 / (N : ℝ)) atTop (𝓝 0) := Tendsto.const_div_atTop tendsto_natCast_atTop_atTop 7
  have h := ((((h1 3).sub_const 1).add ((((h1 3).mul (h1 1)).mul (h1 2)).sub_const 1)).add ((((h1 3).mul (h1 2)).sub_const 1).const_mul 2)).add h7
  norm_num at h
  refine h.congr' ?_
  filter_upwards [eventually_gt_atTop 3] with N hN
  have hN' : (3 : ℝ) < N := by exact_mod_cast hN
  have : (N : ℝ) - 3 ≠ 0 := by linarith
  have : (N : ℝ) - 2 ≠ 0 := by linarith
  have : (N : ℝ) - 1 ≠ 0 := by linarith
  have : (N : ℝ) ≠ 0 := by linarith
  unfold gap
  field_simp

section power
variable {Ω : Type} [MeasurableSpace Ω] {P : Measure Ω} [IsProbabilityMeasure P]

/-- C179. If the variables are dependent then, with probability one over the records, the share of the shuffles with which the p-value is the least possible tends
to one, for every number of shuffles. -/
theorem c179_power (unbiased : Bool) {wx wy : ℝ} (hwx : 0 < wx) (hwy : 0 < wy) {X : ℕ → Ω → Fin d → ℝ} {Y : ℕ → Ω → Fin e → ℝ} (h : DrawnPairs P X Y)
    (hdep : ¬ IndepFun (X 0) (Y 0) P) :
    ∀ᵐ ω ∂P, ∀ m : ℕ, Tendsto (fun N : ℕ => (Nat.card {π : Fin m → Equiv.Perm (Fin N) //
      permutationTest unbiased (List.ofFn π) (gaussianWidth wx (upto X N ω)) (gaussianWidth wy (upto Y N ω)) = 1 / (1 + (m : ℝ))} : ℝ) / (N.factorial : ℝ) ^ m) atTop (𝓝 1) := by
  obtain ⟨D, hD0, hD, hl⟩ := c178_vstat hwx hwy h
  have hDpos : 0 < D := lt_of_le_of_ne hD0 fun h0 => hdep (hD.1 h0.symm)
  filter_upwards [hl] with ω hω m
  have hlow : Tendsto (fun N : ℕ => (1 - 16 / (D / 2 * ((N : ℝ) - 1))) ^ m) atTop (𝓝 1) := by
    have h1 : Tendsto (fun N : ℕ => D / 2 * ((N : ℝ) - 1)) atTop atTop :=
      (tendsto_atTop_add_const_right _ (-1) tendsto_natCast_atTop_atTop).const_mul_atTop (by linarith)
    have := ((Tendsto.const_div_atTop h1 16).const_sub 1).pow m
    simpa using this
  have hpos : ∀ᶠ N : ℕ in atTop, 0 ≤ 1 - 16 / (D / 2 * ((N : ℝ) - 1)) := by
    have h1 : Tendsto (fun N : ℕ => D / 2 * ((N : ℝ) - 1)) atTop atTop :=
      (tendsto_atTop_add_const_right _ (-1) tendsto_natCast_atTop_atTop).const_mul_atTop (by linarith)
    have h2 := (Tendsto.const_div_atTop h1 16).const_sub 1
    rw [sub_zero] at h2
    exact (h2.eventually (lt_mem_nhds one_pos)).mono fun N hN => hN.le
  refine tendsto_of_tendsto_of_tendsto_of_le_of_le' hlow tendsto_const_nhds ?_ ?_
  · filter_upwards [hω.eventually (lt_mem_nhds (by linarith : 3 * D / 4 < D)), gap_tendsto.eventually (gt_mem_nhds (by linarith : 0 < D / 8)), eventually_ge_atTop 4, hpos] with N a1 a2 a3 a4
    have hN : (4 : ℝ) ≤ N := by exact_mod_cast a3
    obtain ⟨K, hK⟩ : ∃ K : Mat N, K = gaussianWidth wx (upto X N ω) := ⟨_, rfl⟩
    obtain ⟨L, hL⟩ : ∃ L : Mat N, L = gaussianWidth wy (upto Y N ω) := ⟨_, rfl⟩
    have hKp : K.PosSemidef := hK ▸ gaussianWidth_psd hwx.le _
    have hLp : L.PosSemidef := hL ▸ gaussianWidth_psd hwy.le _
    have hK1 : ∀ i j, |K i j| ≤ 1 := hK ▸ gaussianWidth_le wx hwx.le _
    have hL1 : ∀ i j, |L i j| ≤ 1 := hL ▸ gaussianWidth_le wy hwy.le _
    have hKs : K.IsSymm := by ext i j; rw [hK]; exact gaussianWidth_symm wx _ j i
    have hLs : L.IsSymm := by ext i j; rw [hL]; exact gaussianWidth_symm wy _ j i
    rw [← hK, ← hL] at a1 ⊢
    have hN2 : (0 : ℝ) < (N : ℝ) ^ 2 := by positivity
    obtain ⟨bad, hbad⟩ : ∃ bad, bad = univ.filter fun σ : Equiv.Perm (Fin N) => D / 2 * (N : ℝ) ^ 2 ≤ vStat K (shuffle σ L) := ⟨_, rfl⟩
    have hb : ∀ σ, σ ∉ bad → gt (statOf unbiased K (shuffle σ L)) (statOf unbiased K L) = false := fun σ hσ => by
      rw [hbad, Finset.mem_filter, not_and] at hσ
      have h1 := not_le.1 (hσ (Finset.mem_univ σ))
      rw [← div_lt_iff₀ hN2] at h1
      unfold statOf
      cases unbiased
      · simp only [Bool.false_eq_true, if_false, gt, decide_eq_false_iff_not, not_lt]
        rw [← div_le_div_iff_of_pos_right hN2]
        linarith
      · simp only [if_true]
        obtain ⟨u, e1, u1⟩ := u_near a3 hKs hLs hK1 hL1
        obtain ⟨u', e2, u2⟩ := u_near a3 hKs (hLs.submatrix σ) hK1 fun i j => hL1 (σ i) (σ j)
        rw [e1, show (uStat K (shuffle σ L)).1 = some u' from e2]
        simp only [gt, decide_eq_false_iff_not, not_lt]
        have := abs_le.1 u1
        have h2 := abs_le.1 u2
        have h3 : vStat K (L.submatrix σ σ) / (N : ℝ) ^ 2 < D / 2 := h1
        linarith
    have hfew : (bad.card : ℝ) ≤ N.factorial * (16 / (D / 2 * ((N : ℝ) - 1))) := hbad ▸ few_great (by omega) hKp hLp hK1 hL1 (by linarith)
    have hcard : (Fintype.piFinset fun _ : Fin m => badᶜ).card ≤ Nat.card {π : Fin m → Equiv.Perm (Fin N) // permutationTest unbiased (List.ofFn π) K L = 1 / (1 + (m : ℝ))} := by
      classical
      rw [Nat.card_eq_fintype_card, Fintype.card_subtype]
      refine Finset.card_le_card fun π hπ => ?_
      rw [Finset.mem_filter]
      refine ⟨Finset.mem_univ _, ?_⟩
      rw [perm_eq, share_least]
      · simp
      · intro x hx
        rw [List.mem_map] at hx
        obtain ⟨σ, hσ, rfl⟩ := hx
        obtain ⟨i, rfl⟩ := List.mem_ofFn.1 hσ
        exact hb _ (Finset.mem_compl.1 (Fintype.mem_piFinset.1 hπ i))
    rw [Fintype.card_piFinset_const, Finset.card_compl, Fintype.card_perm, Fintype.card_fin] at hcard
    have hle : bad.card ≤ N.factorial := by
      have := Finset.card_le_univ bad
      rwa [Fintype.card_perm, Fintype.card_fin] at this
    have hf : (0 : ℝ) < N.factorial := by exact_mod_cast N.factorial_pos
    have h5 : ((N.factorial : ℝ) - bad.card) ^ m ≤ Nat.card {π : Fin m → Equiv.Perm (Fin N) // permutationTest unbiased (List.ofFn π) K L = 1 / (1 + (m : ℝ))} := by
      rw [← Nat.cast_sub hle]
      exact_mod_cast hcard
    rw [le_div_iff₀ (by positivity), ← mul_pow]
    refine (pow_le_pow_left₀ (by positivity) ?_ m).trans h5
    nlinarith
  · filter_upwards with N
    have hf : (0 : ℝ) < (N.factorial : ℝ) ^ m := by
      have : (0 : ℝ) < N.factorial := by exact_mod_cast N.factorial_pos
      positivity
    rw [div_le_one hf]
    have := Nat.card_mono (Set.toFinite (Set.univ : Set (Fin m → Equiv.Perm (Fin N)))) (Set.subset_univ {π | permutationTest unbiased (List.ofFn π) (gaussianWidth wx (upto X N ω)) (gaussianWidth wy (upto Y N ω)) = 1 / (1 + (m : ℝ))})
    rw [Nat.card_univ, Nat.card_fun, Nat.card_fin, Nat.card_eq_fintype_card (α := Equiv.Perm (Fin N)), Fintype.card_perm, Fintype.card_fin] at this
    exact_mod_cast this

end power

section level

/-- How many values are at least the `i`-th. -/
noncomputable def above (v : Fin m → ℝ) (i : Fin m) : ℕ := (univ.filter fun j => v i ≤ v j).card

theorem above_few (v : Fin m → ℝ) {c : ℝ} (hc : 0 ≤ c) : ((univ.filter fun i => (above v i : ℝ) ≤ c).card : ℝ) ≤ c := by
  rcases (univ.filter fun i => (above v i : ℝ) ≤ c).eq_empty_or_nonempty with h | h
  · rw [h]; simpa using hc
  · obtain ⟨i, hi, hmin⟩ := Finset.exists_min_image _ v h
    refine le_trans ?_ (Finset.mem_filter.1 hi).2
    unfold above
    exact_mod_cast Finset.card_le_card fun j hj => Finset.mem_filter.2 ⟨Finset.mem_univ j, hmin j hj⟩

theorem above_comp (v : Fin m → ℝ) (ρ : Equiv.Perm (Fin m)) (i : Fin m) : above (fun j => v (ρ j)) i = above v (ρ i) := by
  unfold above
  refine Finset.card_bij (fun j _ => ρ j) (fun j hj => ?_) (fun a _ b _ hab => ρ.injective hab) fun j hj => ⟨ρ.symm j, ?_, by simp⟩
  · simpa using hj
  · simpa using hj

theorem stat_none (unbiased : Bool) (K L : Mat n) : statOf unbiased K L = none ↔ unbiased = true ∧ n < 4 := by
  unfold statOf
  cases unbiased
  · simp
  · simp only [if_true, true_and]
    rw [← not_le, ← c144_finite K L, Option.not_isSome_iff_eq_none]

/-- The p-value without ties, by the number of values that are at least the statistic. -/
theorem rank_le (unbiased : Bool) (π : Fin m → Equiv.Perm (Fin n)) (K L : Mat n) {α : ℝ} (h : permutationTest unbiased (List.ofFn π) K L ≤ α)
    (hne : ∀ i, statOf unbiased K (shuffle (π i) L) ≠ statOf unbiased K L) :
    (above (fun j => (statOf unbiased K (shuffle ((Fin.cons 1 π : Fin (m + 1) → Equiv.Perm (Fin n)) j) L)).getD 0) 0 : ℝ) ≤ α * (m + 1) := by
  have h1 : shuffle (1 : Equiv.Perm (Fin n)) L = L := rfl
  have hgt : ∀ i, (statOf unbiased K L).getD 0 ≤ (statOf unbiased K (shuffle (π i) L)).getD 0 → gt (statOf unbiased K (shuffle (π i) L)) (statOf unbiased K L) = true := by
    intro i hi
    have := hne i
    rcases ha : statOf unbiased K L with _ | a <;> rcases hb : statOf unbiased K (shuffle (π i) L) with _ | b
    · rw [ha, hb] at this; exact absurd rfl this
    · rw [stat_none] at ha; rw [(stat_none ..).2 ha] at hb; cases hb
    · rw [stat_none] at hb; rw [(stat_none ..).2 hb] at ha; cases ha
    · rw [ha, hb] at this hi
      simp only [Option.getD_some] at hi
      simp only [gt, decide_eq_true_eq]
      exact lt_of_le_of_ne hi fun e => this (by rw [e])
  rw [perm_eq] at h
  unfold shareAbove at h
  rw [List.length_map, List.length_ofFn, div_le_iff₀ (by positivity)] at h
  have hcount : (univ.filter fun i => (statOf unbiased K L).getD 0 ≤ (statOf unbiased K (shuffle (π i) L)).getD 0).card ≤
      ((List.ofFn π).map fun pp => statOf unbiased K (shuffle pp L)).countP fun x => gt x (statOf unbiased K L) := by
    rw [List.ofFn_eq_map, List.map_map, List.countP_map, List.countP_eq_length_filter, ← List.toFinset_card_of_nodup ((List.nodup_finRange m).filter _)]
    refine Finset.card_le_card fun i hi => ?_
    simp only [List.mem_toFinset, List.mem_filter, List.mem_finRange, true_and, Function.comp]
    exact hgt i (Finset.mem_filter.1 hi).2
  have habove : above (fun j => (statOf unbiased K (shuffle ((Fin.cons 1 π : Fin (m + 1) → Equiv.Perm (Fin n)) j) L)).getD 0) 0 =
      1 + (univ.filter fun i => (statOf unbiased K L).getD 0 ≤ (statOf unbiased K (shuffle (π i) L)).getD 0).card := by
    unfold above
    rw [Fin.card_filter_univ_succ]
    simp only [Fin.cons_zero, Fin.cons_succ, h1, le_refl, if_true]
    rw [add_comm]
  rw [habove]
  push_cast
  have : ((univ.filter fun i => (statOf unbiased K L).getD 0 ≤ (statOf unbiased K (shuffle (π i) L)).getD 0).card : ℝ) ≤
    (((List.ofFn π).map fun pp => statOf unbiased K (shuffle pp L)).countP fun x => gt x (statOf unbiased K L) : ℕ) := by exact_mod_cast hcount
  linarith

variable {Z : Type} [MeasurableSpace Z]

theorem meas_stat (unbiased : Bool) {K L : Z → Mat n} (hK : ∀ i j, Measurable fun z => K z i j) (hL : ∀ i j, Measurable fun z => L z i j) :
    Measurable fun z => (statOf unbiased (K z) (L z)).getD 0 := by
  have hz : ∀ {K : Z → Mat n}, (∀ i j, Measurable fun z => K z i j) → ∀ i j, Measurable fun z => zeroDiag (K z) i j := fun h i j => by
    unfold zeroDiag
    simp only [Matrix.of_apply]
    split
    · exact measurable_const
    · exact h i j
  cases unbiased
  · have hc : ∀ {K : Z → Mat n}, (∀ i j, Measurable fun z => K z i j) → ∀ i j, Measurable fun z => centerKernelMatrix (K z) i j := fun h i j => by
      unfold centerKernelMatrix vecSum colSums
      fun_prop
    have h1 := hc hK
    have h2 := hc hL
    unfold statOf vStat
    simp only [Bool.false_eq_true, if_false, Option.getD_some]
    fun_prop
  · have h1 := hz hK
    have h2 := hz hL
    unfold statOf uStat
    simp only [if_true]
    by_cases h0 : (n : ℝ) * (n - 3) * (n - 1) * (n - 2) = 0
    · simp only [h0, if_true, Option.getD_none]
      exact measurable_const
    · simp only [h0, if_false, Option.getD_some]
      unfold Matrix.trace total
      simp only [Matrix.diag_apply, Matrix.mul_apply]
      fun_prop

theorem meas_above {t : Fin m → Z → ℝ} (ht : ∀ j, Measurable (t j)) (i : Fin m) (c : ℝ) : MeasurableSet {z | (above (fun j => t j z) i : ℝ) ≤ c} := by
  have : Measurable fun z => (above (fun j => t j z) i : ℝ) := by
    unfold above
    simp only [Finset.card_filter, Nat.cast_sum, Nat.cast_ite, Nat.cast_one, Nat.cast_zero]
    exact Finset.measurable_sum _ fun j _ => Measurable.ite (measurableSet_le (ht i) (ht j)) measurable_const measurable_const
  exact measurableSet_le this measurable_const

variable {Ω : Type} [MeasurableSpace Ω] {P : Measure Ω} [IsProbabilityMeasure P]

theorem sum_above {t : Fin m → Ω → ℝ} (ht : ∀ j, Measurable (t j)) {c : ℝ} (hc : 0 ≤ c) : ∑ i, P.real {ω | (above (fun j => t j ω) i : ℝ) ≤ c} ≤ c := by
  have hint : ∀ i, Integrable (Set.indicator {ω | (above (fun j => t j ω) i : ℝ) ≤ c} (1 : Ω → ℝ)) P := fun i => (integrable_const (1 : ℝ)).indicator (meas_above ht i c)
  have h1 : ∀ i, P.real {ω | (above (fun j => t j ω) i : ℝ) ≤ c} = ∫ ω, Set.indicator {ω | (above (fun j => t j ω) i : ℝ) ≤ c} (1 : Ω → ℝ) ω ∂P := fun i => (integral_indicator_one (meas_above ht i c)).symm
  simp only [h1]
  rw [← integral_finsetSum _ fun i _ => hint i]
  have h2 : ∫ _ω, c ∂P = c := by simp
  refine le_trans (integral_mono (integrable_finsetSum _ fun i _ => hint i) (integrable_const c) fun ω => ?_) h2.le
  refine le_trans (le_of_eq ?_) (above_few (fun j => t j ω) hc)
  simp only [Set.indicator_apply, Set.mem_ofPred_eq, Pi.one_apply]
  rw [Finset.card_filter]
  push_cast
  rfl

/-- C179. If the two samples are independent and the rows of the second are exchangeable then the mean over all shuffles of the probability that the p-value is at
most `α` and the statistic is not tied with a shuffled one is at most `α`: for all kernels that commute with the order of the rows, all numbers of records and of
shuffles. -/
theorem c179_level (unbiased : Bool) {X : Ω → Data n d} {Y : Ω → Data n e} (hX : Measurable X) (hY : Measurable Y) (hi : IndepFun X Y P)
    (hex : ∀ σ : Equiv.Perm (Fin n), IdentDistrib (fun ω i => Y ω (σ i)) Y P P) {kx : Data n d → Mat n} {ky : Data n e → Mat n}
    (hkx : ∀ i j, Measurable fun x => kx x i j) (hky : ∀ i j, Measurable fun y => ky y i j)
    (heq : ∀ (σ : Equiv.Perm (Fin n)) y i j, ky (fun i => y (σ i)) i j = ky y (σ i) (σ j)) (m : ℕ) {α : ℝ} (hα : 0 ≤ α) :
    (∑ π : Fin m → Equiv.Perm (Fin n), P.real {ω | permutationTest unbiased (List.ofFn π) (kx (X ω)) (ky (Y ω)) ≤ α ∧
      ∀ i, statOf unbiased (kx (X ω)) (shuffle (π i) (ky (Y ω))) ≠ statOf unbiased (kx (X ω)) (ky (Y ω))}) / (n.factorial : ℝ) ^ m ≤ α := by
  obtain ⟨t, ht⟩ : ∃ t : Equiv.Perm (Fin n) → Data n d × Data n e → ℝ, t = fun σ z => (statOf unbiased (kx z.1) (shuffle σ (ky z.2))).getD 0 := ⟨_, rfl⟩
  have htm : ∀ σ, Measurable (t σ) := fun σ => by
    rw [ht]
    exact meas_stat unbiased (fun i j => (hkx i j).comp measurable_fst) fun i j => (hky (σ i) (σ j)).comp measurable_snd
  have hXY : Measurable fun ω => (X ω, Y ω) := hX.prodMk hY
  have hYσ : ∀ σ : Equiv.Perm (Fin n), Measurable fun ω i => Y ω (σ i) := fun σ => measurable_pi_lambda _ fun i => (measurable_pi_apply (σ i)).comp hY
  have hlaw : ∀ σ : Equiv.Perm (Fin n), P.map (fun ω => (X ω, fun i => Y ω (σ i))) = P.map fun ω => (X ω, Y ω) := fun σ => by
    have h1 : IndepFun X (fun ω i => Y ω (σ i)) P :=
      hi.comp (φ := fun x => x) (ψ := fun (y : Data n e) i => y (σ i)) measurable_id (measurable_pi_lambda _ fun i => measurable_pi_apply (σ i))
    rw [(indepFun_iff_map_prod_eq_prod_map_map hX.aemeasurable (hYσ σ).aemeasurable).1 h1, (indepFun_iff_map_prod_eq_prod_map_map hX.aemeasurable hY.aemeasurable).1 hi, (hex σ).map_eq]
  have hmul : ∀ σ τ z, t τ (z.1, fun i => z.2 (σ i)) = t (σ * τ) z := fun σ τ z => by
    rw [ht]
    have : shuffle τ (ky fun i => z.2 (σ i)) = shuffle (σ * τ) (ky z.2) := by
      ext i j
      exact heq σ z.2 (τ i) (τ j)
    simp only [this]
  obtain ⟨q, hq⟩ : ∃ q : (Fin (m + 1) → Equiv.Perm (Fin n)) → Fin (m + 1) → ℝ,
      q = fun τ i => P.real {ω | (above (fun j => t (τ j) (X ω, Y ω)) i : ℝ) ≤ α * (m + 1)} := ⟨_, rfl⟩
  have hinv : ∀ σ τ, q (fun j => σ * τ j) 0 = q τ 0 := fun σ τ => by
    have hS := meas_above (t := fun j => t (τ j)) (fun j => htm (τ j)) 0 (α * (m + 1))
    rw [hq]
    have e1 : P.real {ω | (above (fun j => t (σ * τ j) (X ω, Y ω)) 0 : ℝ) ≤ α * (m + 1)} =
        (P.map fun ω => (X ω, fun i => Y ω (σ i))).real {z | (above (fun j => t (τ j) z) 0 : ℝ) ≤ α * (m + 1)} := by
      rw [map_measureReal_apply (hX.prodMk (hYσ σ)) hS]
      congr 1
      ext ω
      simp only [Set.mem_ofPred_eq, Set.mem_preimage]
      rw [show (fun j => t (σ * τ j) (X ω, Y ω)) = fun j => t (τ j) (X ω, fun i => Y ω (σ i)) from funext fun j => (hmul σ (τ j) (X ω, Y ω)).symm]
    have e2 : P.real {ω | (above (fun j => t (τ j) (X ω, Y ω)) 0 : ℝ) ≤ α * (m + 1)} =
        (P.map fun ω => (X ω, Y ω)).real {z | (above (fun j => t (τ j) z) 0 : ℝ) ≤ α * (m + 1)} := by
      rw [map_measureReal_apply hXY hS]
      rfl
    simp only
    rw [e1, e2, hlaw]
  have hc : 0 ≤ α * ((m : ℝ) + 1) := by positivity
  have hrow : ∀ τ, ∑ i, q τ i ≤ α * (m + 1) := fun τ => by
    rw [hq]
    exact sum_above (t := fun j ω => t (τ j) (X ω, Y ω)) (fun j => (htm (τ j)).comp hXY) hc
  have hidx : ∀ i, ∑ τ, q τ i = ∑ τ, q τ 0 := fun i => by
    refine Fintype.sum_equiv (Equiv.arrowCongr (Equiv.swap 0 i) (Equiv.refl _)) _ _ fun τ => ?_
    rw [hq]
    simp only
    congr 1
    ext ω
    have := above_comp (fun j => t (τ j) (X ω, Y ω)) (Equiv.swap 0 i) 0
    rw [Equiv.swap_apply_left] at this
    simp only [Set.mem_ofPred_eq]
    rw [← this]
    rfl
  have htot : ∑ τ, q τ 0 = n.factorial * ∑ π : Fin m → Equiv.Perm (Fin n), q (Fin.cons 1 π) 0 := by
    rw [← Fintype.sum_equiv (Fin.consEquiv fun _ : Fin (m + 1) => Equiv.Perm (Fin n)) (fun p => q (Fin.cons p.1 p.2) 0) (fun τ => q τ 0) fun p => rfl, Fintype.sum_prod_type]
    have : ∀ σ : Equiv.Perm (Fin n), ∑ π : Fin m → Equiv.Perm (Fin n), q (Fin.cons σ π) 0 = ∑ π : Fin m → Equiv.Perm (Fin n), q (Fin.cons 1 π) 0 := fun σ => by
      refine (Fintype.sum_equiv (Equiv.mulLeft fun _ => σ) _ _ fun π => ?_).symm
      rw [← hinv σ]
      congr 1
      funext j
      refine Fin.cases ?_ (fun k => ?_) j
      · simp
      · simp
    simp only [this, Finset.sum_const, Finset.card_univ, Fintype.card_perm, Fintype.card_fin, nsmul_eq_mul]
  have hf : (0 : ℝ) < n.factorial := by exact_mod_cast n.factorial_pos
  have hall : ((m : ℝ) + 1) * ∑ τ, q τ 0 ≤ (n.factorial : ℝ) ^ (m + 1) * (α * (m + 1)) := by
    have h1 : ∑ τ, ∑ i, q τ i = ((m : ℝ) + 1) * ∑ τ, q τ 0 := by
      rw [Finset.sum_comm]
      simp only [hidx, Finset.sum_const, Finset.card_univ, Fintype.card_fin, nsmul_eq_mul]
      push_cast
      rfl
    rw [← h1]
    refine (Finset.sum_le_sum fun τ _ => hrow τ).trans (le_of_eq ?_)
    simp only [Finset.sum_const, Finset.card_univ, Fintype.card_fun, Fintype.card_perm, Fintype.card_fin, nsmul_eq_mul]
    push_cast
    rfl
  have hA : ∑ π : Fin m → Equiv.Perm (Fin n), q (Fin.cons 1 π) 0 ≤ α * (n.factorial : ℝ) ^ m := by
    rw [htot, pow_succ] at hall
    have hm1 : (0 : ℝ) < (m : ℝ) + 1 := by positivity
    have : (n.factorial : ℝ) * ((m : ℝ) + 1) * ∑ π : Fin m → Equiv.Perm (Fin n), q (Fin.cons 1 π) 0 ≤ (n.factorial : ℝ) * ((m : ℝ) + 1) * (α * (n.factorial : ℝ) ^ m) := by linarith
    exact le_of_mul_le_mul_left this (by positivity)
  rw [div_le_iff₀ (by positivity)]
  refine le_trans (Finset.sum_le_sum fun π _ => ?_) hA
  rw [hq]
  refine measureReal_mono (fun ω hω => ?_)
  have := rank_le unbiased π (kx (X ω)) (ky (Y ω)) hω.1 hω.2
  rw [ht]
  exact this

/-- The rows of drawn records are exchangeable, and the samples are independent if the variables are. -/
theorem drawn_exchange {X : ℕ → Ω → Fin d → ℝ} {Y : ℕ → Ω → Fin e → ℝ} (h : DrawnPairs P X Y) (hi : IndepFun (X 0) (Y 0) P) (N : ℕ) :
    Measurable (upto X N) ∧ Measurable (upto Y N) ∧ IndepFun (upto X N) (upto Y N) P ∧
      ∀ σ : Equiv.Perm (Fin N), IdentDistrib (fun ω i => upto Y N ω (σ i)) (upto Y N) P P := by
  have mX : Measurable (upto X N) := measurable_pi_lambda _ fun s => h.measX s
  have mY : Measurable (upto Y N) := measurable_pi_lambda _ fun s => h.measY s
  have dX : ∀ s, P.map (X s) = P.map (X 0) := fun s => ((h.ident s).comp measurable_fst).map_eq
  have dY : ∀ s, P.map (Y s) = P.map (Y 0) := fun s => ((h.ident s).comp measurable_snd).map_eq
  have iX : iIndepFun (fun (s : Fin N) => X s) P := (h.indep.comp (fun _ z => z.1) fun _ => measurable_fst).precomp Fin.val_injective
  have iY : iIndepFun Y P := h.indep.comp (fun _ z => z.2) fun _ => measurable_snd
  have lX : P.map (upto X N) = Measure.pi fun _ : Fin N => P.map (X 0) := by
    have := (iIndepFun_iff_map_fun_eq_pi_map fun s : Fin N => (h.measX s).aemeasurable).1 iX
    simp only [dX] at this
    exact this
  have lY : ∀ f : Fin N → ℕ, Function.Injective f → P.map (fun ω i => Y (f i) ω) = Measure.pi fun _ : Fin N => P.map (Y 0) := fun f hf => by
    have := (iIndepFun_iff_map_fun_eq_pi_map fun s : Fin N => (h.measY (f s)).aemeasurable).1 (iY.precomp hf)
    simp only [dY] at this
    exact this
  have : IsProbabilityMeasure (P.map (X 0)) := Measure.isProbabilityMeasure_map (h.measX 0).aemeasurable
  have : IsProbabilityMeasure (P.map (Y 0)) := Measure.isProbabilityMeasure_map (h.measY 0).aemeasurable
  refine ⟨mX, mY, ?_, fun σ => ⟨?_, mY.aemeasurable, ?_⟩⟩
  · rw [indepFun_iff_map_prod_eq_prod_map_map mX.aemeasurable mY.aemeasurable, lX, show P.map (upto Y N) = _ from lY Fin.val Fin.val_injective]
    have mz : ∀ s, Measurable fun ω => (X s ω, Y s ω) := fun s => (h.measX s).prodMk (h.measY s)
    have iz := (iIndepFun_iff_map_fun_eq_pi_map fun s : Fin N => (mz s).aemeasurable).1 (h.indep.precomp Fin.val_injective)
    have dz : ∀ s, P.map (fun ω => (X s ω, Y s ω)) = (P.map (X 0)).prod (P.map (Y 0)) := fun s => by
      rw [(h.ident s).map_eq]
      exact (indepFun_iff_map_prod_eq_prod_map_map (h.measX 0).aemeasurable (h.measY 0).aemeasurable).1 hi
    simp only [dz] at iz
    rw [← (measurePreserving_arrowProdEquivProdArrow (Fin d → ℝ) (Fin e → ℝ) (Fin N) (fun _ => P.map (X 0)) fun _ => P.map (Y 0)).map_eq, ← iz,
      Measure.map_map (MeasurableEquiv.measurable _) (measurable_pi_lambda _ fun s : Fin N => mz s)]
    rfl
  · exact (measurable_pi_lambda _ fun i => h.measY (σ i)).aemeasurable
  · exact (lY (fun i => σ i) fun a b hab => σ.injective (Fin.val_injective hab)).trans (lY Fin.val Fin.val_injective).symm

/-- C179. The level for drawn records and Gaussian kernels of fixed widths. -/
theorem c179_drawn (unbiased : Bool) (wx wy : ℝ) {X : ℕ → Ω → Fin d → ℝ} {Y : ℕ → Ω → Fin e → ℝ} (h : DrawnPairs P X Y) (hi : IndepFun (X 0) (Y 0) P) (N m : ℕ)
    {α : ℝ} (hα : 0 ≤ α) :
    (∑ π : Fin m → Equiv.Perm (Fin N), P.real {ω | permutationTest unbiased (List.ofFn π) (gaussianWidth wx (upto X N ω)) (gaussianWidth wy (upto Y N ω)) ≤ α ∧
      ∀ i, statOf unbiased (gaussianWidth wx (upto X N ω)) (shuffle (π i) (gaussianWidth wy (upto Y N ω))) ≠
        statOf unbiased (gaussianWidth wx (upto X N ω)) (gaussianWidth wy (upto Y N ω))}) / (N.factorial : ℝ) ^ m ≤ α := by
  obtain ⟨mX, mY, h1, h2⟩ := drawn_exchange h hi N
  have hk : ∀ {d : Nat} (w : ℝ) (i j : Fin N), Measurable fun x : Data N d => gaussianWidth w x i j := fun w i j => by
    unfold gaussianWidth sqDist
    fun_prop
  exact c179_level unbiased mX mY h1 h2 (hk wx) (hk wy) (fun σ y i j => rfl) m hα

/-- C179. Expected: the bound holds with ties as well. False: a constant variable is independent of every other one, and the p-value is always the least possible. -/
theorem c179_ties_false (unbiased : Bool) (m : ℕ) {N : ℕ} (hN : 4 ≤ N) : ∃ (Ω : Type) (_ : MeasurableSpace Ω) (P : Measure Ω) (_ : IsProbabilityMeasure P)
    (X Y : ℕ → Ω → Fin 1 → ℝ), DrawnPairs P X Y ∧ IndepFun (X 0) (Y 0) P ∧ ∀ π : Fin m → Equiv.Perm (Fin N),
      P.real {ω | permutationTest unbiased (List.ofFn π) (gaussianWidth 1 (upto X N ω)) (gaussianWidth 1 (upto Y N ω)) = 1 / (1 + (m : ℝ))} = 1 := by
  obtain ⟨Ω, mΩ, P, hP, X, Y, h, -⟩ := exPairs
  refine ⟨Ω, mΩ, P, hP, fun _ _ _ => 0, Y, h.map (f := fun _ _ => 0) (g := fun y => y) measurable_const measurable_id, indepFun_const_left _ _, fun π => ?_⟩
  have : ∀ ω, permutationTest unbiased (List.ofFn π) (gaussianWidth 1 (upto (fun _ _ _ => (0 : ℝ)) N ω : Data N 1)) (gaussianWidth 1 (upto Y N ω)) = 1 / (1 + (m : ℝ)) := fun ω => by
    have hK : gaussianWidth 1 (upto (fun _ _ _ => (0 : ℝ)) N ω : Data N 1) = Matrix.of fun _ _ => 1 := by
      ext i j
      simp [gaussianWidth, sqDist, upto]
    rw [hK, c146_false hN (by ext i j; exact gaussianWidth_symm 1 _ j i), List.length_ofFn]
  have e : {ω | permutationTest unbiased (List.ofFn π) (gaussianWidth 1 (upto (fun _ _ _ => (0 : ℝ)) N ω : Data N 1)) (gaussianWidth 1 (upto Y N ω)) = 1 / (1 + (m : ℝ))} = Set.univ :=
    Set.eq_univ_of_forall this
  rw [e]
  simp

end level

section examples

/-- Independent standard normal variables. -/
theorem exFree : ∃ (Ω : Type) (_ : MeasurableSpace Ω) (P : Measure Ω) (_ : IsProbabilityMeasure P) (X Y : ℕ → Ω → Fin 1 → ℝ),
    DrawnPairs P X Y ∧ IndepFun (X 0) (Y 0) P := by
  obtain ⟨Ω, mΩ, P, E, hm, hl, hi, hP⟩ := exists_iid ℕ (Measure.pi fun _ : Fin 2 => gaussianReal 0 1)
  refine ⟨Ω, mΩ, P, hP, fun s ω _ => E s ω 0, fun s ω _ => E s ω 1, ⟨fun s => ?_, fun s => ?_, ?_, fun s => ?_⟩, ?_⟩
  · exact measurable_pi_lambda _ fun _ => (measurable_pi_apply 0).comp (hm s)
  · exact measurable_pi_lambda _ fun _ => (measurable_pi_apply 1).comp (hm s)
  · exact hi.comp (fun _ (x : Fin 2 → ℝ) => ((fun _ => x 0 : Fin 1 → ℝ), (fun _ => x 1 : Fin 1 → ℝ))) fun _ => by fun_prop
  · have : IdentDistrib (E s) (E 0) P P := ⟨(hm s).aemeasurable, (hm 0).aemeasurable, by rw [(hl s).map_eq, (hl 0).map_eq]⟩
    exact this.comp (u := fun (x : Fin 2 → ℝ) => ((fun _ => x 0 : Fin 1 → ℝ), (fun _ => x 1 : Fin 1 → ℝ))) (by fun_prop)
  · have h1 : iIndepFun (fun i (x : Fin 2 → ℝ) => x i) (Measure.pi fun _ : Fin 2 => gaussianReal 0 1) :=
      iIndepFun_pi (X := fun _ x => x) fun _ => aemeasurable_id
    rw [← (hl 0).map_eq] at h1
    have h2 := (h1.indepFun (i := 0) (j := 1) (by decide))
    have h3 : IndepFun (fun ω => E 0 ω 0) (fun ω => E 0 ω 1) P := by
      rw [indepFun_iff_measure_inter_preimage_eq_mul] at h2 ⊢
      intro s t hs ht
      have := h2 s t hs ht
      rw [Measure.map_apply (hm 0) (((measurable_pi_apply 0) hs).inter ((measurable_pi_apply 1) ht)), Measure.map_apply (hm 0) ((measurable_pi_apply 0) hs),
        Measure.map_apply (hm 0) ((measurable_pi_apply 1) ht)] at this
      exact this
    exact h3.comp (φ := fun x (_ : Fin 1) => x) (ψ := fun x (_ : Fin 1) => x) (by fun_prop) (by fun_prop)

example : ∃ (Ω : Type) (_ : MeasurableSpace Ω) (P : Measure Ω) (X Y : ℕ → Ω → Fin 1 → ℝ), ∀ᵐ ω ∂P, Tendsto (fun N : ℕ => (Nat.card {π : Fin 1000 → Equiv.Perm (Fin N) //
    permutationTest true (List.ofFn π) (gaussianWidth 1 (upto X N ω)) (gaussianWidth 1 (upto Y N ω)) = 1 / (1 + 1000)} : ℝ) / (N.factorial : ℝ) ^ 1000) atTop (𝓝 1) := by
  obtain ⟨Ω, mΩ, P, hP, X, Y, h, -, -, hd⟩ := exPairs
  refine ⟨Ω, mΩ, P, X, Y, ?_⟩
  filter_upwards [c179_power true one_pos one_pos h hd] with ω hω
  exact_mod_cast hω 1000

example (N : ℕ) : ∃ (Ω : Type) (_ : MeasurableSpace Ω) (P : Measure Ω) (X Y : ℕ → Ω → Fin 1 → ℝ),
    (∑ π : Fin 19 → Equiv.Perm (Fin N), P.real {ω | permutationTest false (List.ofFn π) (gaussianWidth 1 (upto X N ω)) (gaussianWidth 1 (upto Y N ω)) ≤ 1 / 20 ∧
      ∀ i, statOf false (gaussianWidth 1 (upto X N ω)) (shuffle (π i) (gaussianWidth 1 (upto Y N ω))) ≠
        statOf false (gaussianWidth 1 (upto X N ω)) (gaussianWidth 1 (upto Y N ω))}) / (N.factorial : ℝ) ^ 19 ≤ 1 / 20 := by
  obtain ⟨Ω, mΩ, P, hP, X, Y, h, hi⟩ := exFree
  exact ⟨Ω, mΩ, P, X, Y, c179_drawn false 1 1 h hi N 19 (by norm_num)⟩

/-- A sample of three columns that is independent of another one, and kernels that are products of values. -/
example (n : ℕ) : ∃ (Ω : Type) (_ : MeasurableSpace Ω) (P : Measure Ω) (X : Ω → Data n 3) (Y : Ω → Data n 1),
    (∑ π : Fin 9 → Equiv.Perm (Fin n), P.real {ω | permutationTest true (List.ofFn π) (Matrix.of fun i j => X ω i 0 * X ω j 0) (Matrix.of fun i j => Y ω i 0 * Y ω j 0) ≤ 1 / 5 ∧
      ∀ i, statOf true (Matrix.of fun i j => X ω i 0 * X ω j 0) (shuffle (π i) (Matrix.of fun i j => Y ω i 0 * Y ω j 0)) ≠
        statOf true (Matrix.of fun i j => X ω i 0 * X ω j 0) (Matrix.of fun i j => Y ω i 0 * Y ω j 0)}) / (n.factorial : ℝ) ^ 9 ≤ 1 / 5 := by
  obtain ⟨Ω, mΩ, P, hP, X, Y, h, hi⟩ := exFree
  have h' : DrawnPairs P (fun s ω (_ : Fin 3) => X s ω 0) Y := h.map (f := fun x _ => x 0) (g := fun y => y) (by fun_prop) measurable_id
  have hi' : IndepFun (fun ω (_ : Fin 3) => X 0 ω 0) (Y 0) P := hi.comp (φ := fun (x : Fin 1 → ℝ) (_ : Fin 3) => x 0) (ψ := fun y => y) (by fun_prop) measurable_id
  obtain ⟨mX, mY, h1, h2⟩ := drawn_exchange h' hi' n
  refine ⟨Ω, mΩ, P, upto (fun s ω _ => X s ω 0) n, upto Y n, ?_⟩
  exact c179_level true mX mY h1 h2 (kx := fun x => Matrix.of fun i j => x i 0 * x j 0) (ky := fun y => Matrix.of fun i j => y i 0 * y j 0)
    (fun i j => by simp only [Matrix.of_apply]; fun_prop) (fun i j => by simp only [Matrix.of_apply]; fun_prop) (fun σ y i j => rfl) 9 (by norm_num)

end examples

end Cdmir.ShuffleTest
