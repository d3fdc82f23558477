import Verif.Props.NullMean

/-! C185: the U statistic of HSICTestObject.py is zero on average over the shuffles of one sample, for every two kernel matrices, and has mean zero under independence. -/

namespace Cdmir.UnbiasedMean
open BigOperators KTest HsicTest ShuffleTest NullMean MeasureTheory ProbabilityTheory

variable {n d e : Nat}

/-- Every entry off the diagonal takes the place of every other equally often. -/
theorem off_sum (hn : 2 ≤ n) (A B : Mat n) (hA : ∀ i, A i i = 0) (hB : ∀ i, B i i = 0) :
    ∑ σ : Equiv.Perm (Fin n), ∑ i, ∑ j, A i j * B (σ j) (σ i) = (n.factorial : ℝ) * (total A * total B / (n * ((n : ℝ) - 1))) := by
  have hn' : (2 : ℝ) ≤ n := by exact_mod_cast hn
  obtain ⟨F, hF⟩ : ∃ F : Fin n → Fin n → ℝ, F = fun i j => ∑ σ : Equiv.Perm (Fin n), B (σ j) (σ i) := ⟨_, rfl⟩
  have inv : ∀ (τ : Equiv.Perm (Fin n)) i j, F (τ i) (τ j) = F i j := fun τ i j => by
    rw [hF]
    exact Fintype.sum_equiv (Equiv.mulRight τ) _ _ fun σ => rfl
  have hf : ∀ i, F i i = 0 := fun i => by
    rw [hF]
    exact Finset.sum_eq_zero fun σ _ => hB _
  obtain ⟨g, hg⟩ : ∃ g, ∀ i j, i ≠ j → F i j = g := by
    refine ⟨F ⟨0, by omega⟩ ⟨1, by omega⟩, fun i j hij => ?_⟩
    obtain ⟨τ, h1, h2⟩ : ∃ τ : Equiv.Perm (Fin n), τ i = ⟨0, by omega⟩ ∧ τ j = ⟨1, by omega⟩ := by
      have a : Function.Injective ![i, j] := by
        intro x y h
        fin_cases x <;> fin_cases y <;> simp_all
      have b : Function.Injective (![⟨0, by omega⟩, ⟨1, by omega⟩] : Fin 2 → Fin n) := by
        intro x y h
        fin_cases x <;> fin_cases y <;> simp_all
      obtain ⟨τ, hτ⟩ := Equiv.Perm.exists_extending_pair ![i, j] (![⟨0, by omega⟩, ⟨1, by omega⟩] : Fin 2 → Fin n) a b
      exact ⟨τ, hτ 0, hτ 1⟩
    rw [← h1, ← h2, inv]
  have hF' : ∀ i j, F i j = g - if i = j then g else 0 := fun i j => by
    by_cases h : i = j
    · subst h; rw [hf, if_pos rfl, sub_self]
    · rw [hg i j h, if_neg h, sub_zero]
  have htot : n * (n * g) - n * g = n.factorial * total B := by
    have h0 : ∑ i, ∑ j, F i j = n.factorial * total B := by
      have h1 : ∑ i, ∑ j, F i j = ∑ σ : Equiv.Perm (Fin n), ∑ i, ∑ j, B (σ j) (σ i) := by
        rw [hF, Finset.sum_comm]
        refine (Finset.sum_congr rfl fun i _ => Finset.sum_comm).trans (Finset.sum_comm.trans (Finset.sum_congr rfl fun σ _ => Finset.sum_comm))
      have h2 : ∀ σ : Equiv.Perm (Fin n), ∑ i, ∑ j, B (σ j) (σ i) = total B := fun σ => by
        rw [Equiv.sum_comp σ fun i => ∑ j, B (σ j) i, Finset.sum_comm]
        exact Equiv.sum_comp σ fun j => ∑ i, B j i
      rw [h1]
      simp only [h2, Finset.sum_const, Finset.card_univ, Fintype.card_perm, Fintype.card_fin, nsmul_eq_mul]
    simp only [hF', Finset.sum_sub_distrib, Finset.sum_ite_eq, Finset.mem_univ, if_true, Finset.sum_const, Finset.card_univ, Fintype.card_fin, nsmul_eq_mul] at h0
    exact h0
  have h1 : ∑ σ : Equiv.Perm (Fin n), ∑ i, ∑ j, A i j * B (σ j) (σ i) = ∑ i, ∑ j, A i j * F i j := by
    rw [Finset.sum_comm, hF]
    refine Finset.sum_congr rfl fun i _ => ?_
    rw [Finset.sum_comm]
    exact Finset.sum_congr rfl fun j _ => (Finset.mul_sum ..).symm
  have h2 : ∀ i j, A i j * F i j = A i j * g := fun i j => by
    by_cases h : i = j
    · subst h; rw [hA, zero_mul, zero_mul]
    · rw [hg i j h]
  rw [h1]
  simp only [h2, ← Finset.sum_mul]
  change total A * g = _
  have h3 : g = n.factorial * total B / (n * ((n : ℝ) - 1)) := by
    rw [eq_div_iff (by have : (0 : ℝ) < n * ((n : ℝ) - 1) := mul_pos (by linarith) (by linarith)
                       exact this.ne')]
    linarith
  rw [h3]
  ring

theorem place_sum (hn : 1 ≤ n) (a b : Fin n → ℝ) : ∑ σ : Equiv.Perm (Fin n), ∑ k, a k * b (σ k) = (n.factorial : ℝ) * ((∑ k, a k) * (∑ k, b k) / n) := by
  have hn' : (1 : ℝ) ≤ n := by exact_mod_cast hn
  obtain ⟨G, hG⟩ : ∃ G : Fin n → ℝ, G = fun k => ∑ σ : Equiv.Perm (Fin n), b (σ k) := ⟨_, rfl⟩
  obtain ⟨g, hg⟩ : ∃ g, ∀ k, G k = g := ⟨G ⟨0, by omega⟩, fun k => by
    rw [hG]
    refine Fintype.sum_equiv (Equiv.mulRight (Equiv.swap k ⟨0, by omega⟩)) _ _ fun σ => ?_
    simp⟩
  have h1 : n * g = n.factorial * ∑ k, b k := by
    have h0 : ∑ k, G k = n.factorial * ∑ k, b k := by
      rw [hG]
      simp only
      rw [Finset.sum_comm]
      have : ∀ σ : Equiv.Perm (Fin n), ∑ k, b (σ k) = ∑ k, b k := fun σ => Equiv.sum_comp σ b
      simp only [this, Finset.sum_const, Finset.card_univ, Fintype.card_perm, Fintype.card_fin, nsmul_eq_mul]
    simp only [hg, Finset.sum_const, Finset.card_univ, Fintype.card_fin, nsmul_eq_mul] at h0
    exact h0
  have h2 : g = n.factorial * (∑ k, b k) / n := by rw [eq_div_iff (by linarith)]; linarith
  rw [Finset.sum_comm]
  have h3 : ∀ k, ∑ σ : Equiv.Perm (Fin n), a k * b (σ k) = a k * g := fun k => by rw [← Finset.mul_sum, ← hg k, hG]
  simp only [h3, ← Finset.sum_mul]
  rw [h2]
  ring

/-- C185. Over all shuffles of the rows of one sample the U statistic is zero on average, whatever the matrices. -/
theorem c185_shuffles (hn : 4 ≤ n) (K L : Mat n) :
    (∀ σ, ((uStat K (shuffle σ L)).1).isSome) ∧ ∑ σ : Equiv.Perm (Fin n), ((uStat K (shuffle σ L)).1).getD 0 = 0 := by
  have hn' : (4 : ℝ) ≤ n := by exact_mod_cast hn
  have a0 : (n : ℝ) ≠ 0 := by linarith
  have a1 : (n : ℝ) - 1 ≠ 0 := by linarith
  have a2 : (n : ℝ) - 2 ≠ 0 := by linarith
  have a3 : (n : ℝ) - 3 ≠ 0 := by linarith
  have hne : (n : ℝ) * (n - 3) * (n - 1) * (n - 2) ≠ 0 := mul_ne_zero (mul_ne_zero (mul_ne_zero a0 a3) a1) a2
  obtain ⟨A, hA⟩ : ∃ A, A = zeroDiag K := ⟨_, rfl⟩
  obtain ⟨B, hB⟩ : ∃ B, B = zeroDiag L := ⟨_, rfl⟩
  have hz : ∀ σ, zeroDiag (shuffle σ L) = shuffle σ B := fun σ => by
    rw [hB]
    ext i j
    simp [zeroDiag, shuffle]
  have hv : ∀ σ, (uStat K (shuffle σ L)).1 = some ((∑ i, ∑ j, A i j * B (σ j) (σ i)) / (n * (n - 3)) + total A * total B / (n * (n - 3) * (n - 1) * (n - 2)) -
      2 * (∑ k, (∑ i, A i k) * ∑ j, B (σ k) j) / (n * (n - 3) * (n - 2))) := fun σ => by
    unfold uStat
    simp only [hz, ← hA, if_neg hne]
    have e1 : total (shuffle σ B) = total B := by
      unfold total shuffle
      simp only [Matrix.submatrix_apply]
      rw [Equiv.sum_comp σ fun i => ∑ j, B i (σ j)]
      exact Finset.sum_congr rfl fun i _ => Equiv.sum_comp σ fun j => B i j
    have e2 : total (A * shuffle σ B) = ∑ k, (∑ i, A i k) * ∑ j, B (σ k) j := by
      unfold total shuffle
      simp only [Matrix.mul_apply, Matrix.submatrix_apply]
      calc ∑ i, ∑ j, ∑ k, A i k * B (σ k) (σ j) = ∑ i, ∑ k, ∑ j, A i k * B (σ k) (σ j) := Finset.sum_congr rfl fun i _ => Finset.sum_comm
        _ = ∑ k, ∑ i, ∑ j, A i k * B (σ k) (σ j) := Finset.sum_comm
        _ = _ := Finset.sum_congr rfl fun k _ => by
          rw [Finset.sum_mul_sum]
          exact Finset.sum_congr rfl fun i _ => Equiv.sum_comp σ fun j => A i k * B (σ k) j
    rw [e1, e2]
    rfl
  refine ⟨fun σ => by rw [hv]; rfl, ?_⟩
  have dA : ∀ i, A i i = 0 := fun i => by rw [hA]; simp [zeroDiag]
  have dB : ∀ i, B i i = 0 := fun i => by rw [hB]; simp [zeroDiag]
  simp only [hv, Option.getD_some, Finset.sum_sub_distrib, Finset.sum_add_distrib, ← Finset.sum_div, ← Finset.mul_sum]
  rw [off_sum (by omega) A B dA dB, place_sum (by omega) (fun k => ∑ i, A i k) fun k => ∑ j, B k j]
  simp only [Finset.sum_const, Finset.card_univ, Fintype.card_perm, Fintype.card_fin, nsmul_eq_mul]
  have e : ∑ k, ∑ i, A i k = total A := Finset.sum_comm
  rw [e, show ∑ k, ∑ j, B k j = total B from rfl]
  field_simp
  ring

variable {Ω : Type} [MeasurableSpace Ω] {P : Measure Ω} [IsProbabilityMeasure P]

theorem u_bound {K L : Mat n} {C : ℝ} (hC : 0 ≤ C) (hK : ∀ i j, |K i j| ≤ C) (hL : ∀ i j, |L i j| ≤ C) : |((uStat K L).1).getD 0| ≤
    |n * (n * (C * C)) / (n * ((n : ℝ) - 3))| + |n * (n * C) * (n * (n * C)) / (n * ((n : ℝ) - 3) * (n - 1) * (n - 2))| + 2 * |n * (n * (n * (C * C))) / (n * ((n : ℝ) - 3) * (n - 2))| := by
  have hz : ∀ {K : Mat n}, (∀ i j, |K i j| ≤ C) → ∀ i j, |zeroDiag K i j| ≤ C := fun h i j => by
    unfold zeroDiag
    simp only [Matrix.of_apply]
    split
    · rwa [abs_zero]
    · exact h i j
  have hm : ∀ i j, |(zeroDiag K * zeroDiag L) i j| ≤ n * (C * C) := fun i j => by
    rw [Matrix.mul_apply]
    exact sum_le fun k => by
      rw [abs_mul]
      exact mul_le_mul (hz hK _ _) (hz hL _ _) (abs_nonneg _) hC
  have q : ∀ {a b : ℝ} (c : ℝ), |a| ≤ b → |a / c| ≤ |b / c| := fun c h => by
    rw [abs_div, abs_div]
    exact div_le_div_of_nonneg_right (h.trans (le_abs_self _)) (abs_nonneg _)
  unfold uStat
  simp only
  split
  · rw [Option.getD_none, abs_zero]
    positivity
  · rw [Option.getD_some]
    have b1 := q ((n : ℝ) * ((n : ℝ) - 3)) (show |(zeroDiag K * zeroDiag L).trace| ≤ n * (n * (C * C)) from sum_le fun i => hm i i)
    have t : ∀ {K : Mat n}, (∀ i j, |K i j| ≤ C) → |total (zeroDiag K)| ≤ n * (n * C) := fun h => sum_le fun i => sum_le fun j => hz h i j
    have b2 := q ((n : ℝ) * ((n : ℝ) - 3) * (n - 1) * (n - 2)) (show |total (zeroDiag K) * total (zeroDiag L)| ≤ n * (n * C) * (n * (n * C)) by
      rw [abs_mul]
      exact mul_le_mul (t hK) (t hL) (abs_nonneg _) (by positivity))
    have b3 := q ((n : ℝ) * ((n : ℝ) - 3) * (n - 2)) (show |total (zeroDiag K * zeroDiag L)| ≤ n * (n * (n * (C * C))) from sum_le fun i => sum_le fun j => hm i j)
    refine (abs_sub _ _).trans (add_le_add ((abs_add_le _ _).trans (add_le_add b1 b2)) ?_)
    rw [mul_div_assoc, abs_mul, abs_of_pos (two_pos : (0 : ℝ) < 2)]
    linarith

/-- C185. For independent samples with exchangeable rows the U statistic has mean zero. -/
theorem c185_mean (hn : 4 ≤ n) {X : Ω → Data n d} {Y : Ω → Data n e} (hX : Measurable X) (hY : Measurable Y) (hi : IndepFun X Y P)
    (hex : ∀ σ : Equiv.Perm (Fin n), IdentDistrib (fun ω i => Y ω (σ i)) Y P P) {kx : Data n d → Mat n} {ky : Data n e → Mat n}
    (hkx : ∀ i j, Measurable fun x => kx x i j) (hky : ∀ i j, Measurable fun y => ky y i j) {C : ℝ} (hCx : ∀ x i j, |kx x i j| ≤ C) (hCy : ∀ y i j, |ky y i j| ≤ C)
    (heq : ∀ (σ : Equiv.Perm (Fin n)) y i j, ky (fun i => y (σ i)) i j = ky y (σ i) (σ j)) :
    ∃ u : Ω → ℝ, (∀ ω, (uStat (kx (X ω)) (ky (Y ω))).1 = some (u ω)) ∧ Integrable u P ∧ ∫ ω, u ω ∂P = 0 := by
  obtain ⟨t, ht⟩ : ∃ t : Equiv.Perm (Fin n) → Data n d × Data n e → ℝ, t = fun σ z => ((uStat (kx z.1) (shuffle σ (ky z.2))).1).getD 0 := ⟨_, rfl⟩
  have htm : ∀ σ, Measurable (t σ) := fun σ => by
    rw [ht]
    exact meas_stat true (fun i j => (hkx i j).comp measurable_fst) fun i j => (hky (σ i) (σ j)).comp measurable_snd
  have hXY : Measurable fun ω => (X ω, Y ω) := hX.prodMk hY
  have hYσ : ∀ σ : Equiv.Perm (Fin n), Measurable fun ω i => Y ω (σ i) := fun σ => measurable_pi_lambda _ fun i => (measurable_pi_apply (σ i)).comp hY
  have hlaw : ∀ σ : Equiv.Perm (Fin n), P.map (fun ω => (X ω, fun i => Y ω (σ i))) = P.map fun ω => (X ω, Y ω) := fun σ => by
    have h1 : IndepFun X (fun ω i => Y ω (σ i)) P :=
      hi.comp (φ := fun x => x) (ψ := fun (y : Data n e) i => y (σ i)) measurable_id (measurable_pi_lambda _ fun i => measurable_pi_apply (σ i))
    rw [(indepFun_iff_map_prod_eq_prod_map_map hX.aemeasurable (hYσ σ).aemeasurable).1 h1, (indepFun_iff_map_prod_eq_prod_map_map hX.aemeasurable hY.aemeasurable).1 hi, (hex σ).map_eq]
  have hint : ∀ σ, Integrable (fun ω => t σ (X ω, Y ω)) P := fun σ =>
    Integrable.of_bound ((htm σ).comp hXY).aestronglyMeasurable _ (Filter.Eventually.of_forall fun ω => by
      rw [ht, Real.norm_eq_abs]
      exact u_bound ((abs_nonneg _).trans (hCx (X ω) ⟨0, by omega⟩ ⟨0, by omega⟩)) (hCx _) fun i j => hCy _ _ _)
  have h1 : ∀ σ, ∫ ω, t σ (X ω, Y ω) ∂P = ∫ ω, t 1 (X ω, Y ω) ∂P := fun σ => by
    have e1 : ∀ ω, t σ (X ω, Y ω) = t 1 (X ω, fun i => Y ω (σ i)) := fun ω => by
      rw [ht]
      have : shuffle σ (ky (Y ω)) = shuffle 1 (ky fun i => Y ω (σ i)) := by
        ext i j
        exact (heq σ (Y ω) i j).symm
      simp only [this]
    simp only [e1]
    rw [← integral_map (φ := fun ω => (X ω, fun i => Y ω (σ i))) (f := t 1) (hX.prodMk (hYσ σ)).aemeasurable (htm 1).aestronglyMeasurable, hlaw,
      integral_map (φ := fun ω => (X ω, Y ω)) hXY.aemeasurable (htm 1).aestronglyMeasurable]
  have h2 : ∀ ω, ∑ σ, t σ (X ω, Y ω) = 0 := fun ω => by
    rw [ht]
    exact (c185_shuffles hn (kx (X ω)) (ky (Y ω))).2
  have h3 : ∑ σ, ∫ ω, t σ (X ω, Y ω) ∂P = ∫ ω, ∑ σ, t σ (X ω, Y ω) ∂P := (integral_finsetSum _ fun σ _ => hint σ).symm
  simp only [h1, h2, Finset.sum_const, Finset.card_univ, Fintype.card_perm, Fintype.card_fin, nsmul_eq_mul, integral_zero] at h3
  have hf : (n.factorial : ℝ) ≠ 0 := by exact_mod_cast n.factorial_ne_zero
  refine ⟨fun ω => t 1 (X ω, Y ω), fun ω => ?_, hint 1, (mul_eq_zero.1 h3).resolve_left hf⟩
  rw [ht]
  have hs := (c185_shuffles hn (kx (X ω)) (ky (Y ω))).1 1
  rw [show shuffle 1 (ky (Y ω)) = ky (Y ω) from rfl] at hs
  change _ = some (((uStat (kx (X ω)) (ky (Y ω))).1).getD 0)
  obtain ⟨u, hu⟩ := Option.isSome_iff_exists.1 hs
  rw [hu]
  rfl

/-- C185. Drawn records and Gaussian kernels of fixed widths. -/
theorem c185_drawn {wx wy : ℝ} (hwx : 0 < wx) (hwy : 0 < wy) {X : ℕ → Ω → Fin d → ℝ} {Y : ℕ → Ω → Fin e → ℝ} (h : DrawnPairs P X Y) (hi : IndepFun (X 0) (Y 0) P) {N : ℕ} (hN : 4 ≤ N) :
    ∃ u : Ω → ℝ, (∀ ω, (uStat (gaussianWidth wx (upto X N ω)) (gaussianWidth wy (upto Y N ω))).1 = some (u ω)) ∧ Integrable u P ∧ ∫ ω, u ω ∂P = 0 := by
  obtain ⟨mX, mY, h1, h2⟩ := drawn_exchange h hi N
  have hk : ∀ {d : Nat} (w : ℝ) (i j : Fin N), Measurable fun x : Data N d => gaussianWidth w x i j := fun w i j => by
    unfold gaussianWidth sqDist
    fun_prop
  exact c185_mean hN mX mY h1 h2 (hk wx) (hk wy) (C := 1) (fun x => gaussianWidth_le wx hwx.le x) (fun y => gaussianWidth_le wy hwy.le y) fun σ y i j => rfl

section examples

/-- Four rows; the second matrix is not symmetric. -/
example : ∑ σ : Equiv.Perm (Fin 4), ((uStat (Matrix.of fun i j => (i : ℝ) * j) (shuffle σ (Matrix.of fun i j => if i = 0 ∧ j = 1 then 1 else 0))).1).getD 0 = 0 :=
  (c185_shuffles le_rfl _ _).2

example : ∃ (Ω : Type) (_ : MeasurableSpace Ω) (P : Measure Ω) (X Y : ℕ → Ω → Fin 1 → ℝ) (u : Ω → ℝ),
    (∀ ω, (uStat (gaussianWidth 1 (upto X 50 ω)) (gaussianWidth 2 (upto Y 50 ω))).1 = some (u ω)) ∧ ∫ ω, u ω ∂P = 0 := by
  obtain ⟨Ω, mΩ, P, hP, X, Y, h, hi⟩ := exFree
  obtain ⟨u, a, -, b⟩ := c185_drawn one_pos two_pos h hi (N := 50) (by norm_num)
  exact ⟨Ω, mΩ, P, X, Y, u, a, b⟩

end examples

end Cdmir.UnbiasedMean
