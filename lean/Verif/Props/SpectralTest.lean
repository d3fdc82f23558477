import Verif.Props.ShuffleTest
import Verif.Props.HsicNull
import Verif.Props.CondKciMore
import Verif.Lemmas.Chaos
import Mathlib.Order.Filter.CountableSeparatingOn

/-! C180: the spectral test of HSICSpectralTestObject.py on drawn records. With its default setting it finds every dependence; with `unbiased=True` it finds
none. -/

namespace Cdmir.SpectralTest
open BigOperators KTest HsicTest ShuffleTest Chaos MeasureTheory ProbabilityTheory Filter
open scoped Topology

variable {n d e : Nat}

section draws
variable {Ω : Type} [MeasurableSpace Ω] {Q : Measure Ω} [IsProbabilityMeasure Q]

/-- The entries of `np.random.randn(Dx, Dy)`: independent standard normal variables. -/
structure Normal (Q : Measure Ω) (z : Ω → ℕ → ℕ → ℝ) : Prop where
  meas : ∀ i j, Measurable fun ω => z ω i j
  indep : iIndepFun (fun (p : ℕ × ℕ) ω => z ω p.1 p.2) Q
  law : ∀ i j, HasLaw (fun ω => z ω i j) (gaussianReal 0 1) Q

omit [IsProbabilityMeasure Q] in
theorem null_meas (unbiased : Bool) (lx ly : List ℝ) {z : Ω → ℕ → ℕ → ℝ} (hz : Normal Q z) : Measurable fun ω => nullSample unbiased lx ly (z ω) := by
  simp only [c146_sample]
  refine Finset.measurable_fun_sum _ fun i _ => Finset.measurable_fun_sum _ fun j _ => Measurable.const_mul ?_ _
  cases unbiased
  · simpa using (hz.meas i j).pow_const 2
  · simpa using ((hz.meas i j).pow_const 2).sub_const 1

/-- The mean of a sample for the biased statistic. -/
theorem null_mean (lx ly : List ℝ) {z : Ω → ℕ → ℕ → ℝ} (hz : Normal Q z) :
    Integrable (fun ω => nullSample false lx ly (z ω)) Q ∧ ∫ ω, nullSample false lx ly (z ω) ∂Q = lx.sum * ly.sum := by
  have hsq : ∀ i j, Integrable (fun ω => z ω i j ^ 2) Q ∧ ∫ ω, z ω i j ^ 2 ∂Q = 1 := fun i j => by
    obtain ⟨a, b, -⟩ := gauss_square (hz.law i j)
    have h1 : Integrable (fun ω => z ω i j ^ 2 - 1) Q := a.integrable (by norm_num)
    have h2 : Integrable (fun ω => z ω i j ^ 2) Q := by
      have := h1.fun_add (integrable_const (1 : ℝ))
      simp only [sub_add_cancel] at this
      exact this
    refine ⟨h2, ?_⟩
    rw [integral_sub h2 (integrable_const _)] at b
    simp only [integral_const, probReal_univ, one_smul] at b
    linarith
  simp only [c146_sample, Bool.false_eq_true, if_false]
  have hi : ∀ (i : Fin lx.length) (j : Fin ly.length), Integrable (fun ω => lx[i] * ly[j] * z ω i j ^ 2) Q := fun i j => (hsq i j).1.const_mul _
  refine ⟨integrable_finsetSum _ fun i _ => integrable_finsetSum _ fun j _ => hi i j, ?_⟩
  rw [integral_finsetSum _ fun i _ => integrable_finsetSum _ fun j _ => hi i j]
  have : ∀ i : Fin lx.length, ∫ ω, ∑ j : Fin ly.length, lx[i] * ly[j] * z ω i j ^ 2 ∂Q = ∑ j : Fin ly.length, lx[i] * ly[j] := fun i => by
    rw [integral_finsetSum _ fun j _ => hi i j]
    exact Finset.sum_congr rfl fun j _ => by rw [integral_const_mul, (hsq i j).2, mul_one]
  simp only [this]
  rw [← Finset.sum_mul_sum, sum_get, sum_get]

/-- A sample for the unbiased statistic exceeds a fixed share of its standard deviation with a fixed probability. -/
theorem null_share (lx ly : List ℝ) {z : Ω → ℕ → ℕ → ℝ} (hz : Normal Q z) {s t : ℝ} (hs : 0 < s) (hS : s ^ 2 = 2 * ((lx.map fun x => x ^ 2).sum * (ly.map fun x => x ^ 2).sum))
    (ht : 0 ≤ t) (hts : 32 * t ≤ s) : 1 / 135 ≤ Q.real {ω | t < nullSample true lx ly (z ω)} := by
  have hind : iIndepFun (fun (p : Fin lx.length × Fin ly.length) ω => z ω p.1 p.2 ^ 2 - 1) Q :=
    (hz.indep.precomp (g := fun p : Fin lx.length × Fin ly.length => ((p.1 : ℕ), (p.2 : ℕ))) fun a b hab => by
      simp only [Prod.mk.injEq] at hab
      exact Prod.ext (Fin.ext hab.1) (Fin.ext hab.2)).comp (fun _ x => x ^ 2 - 1) fun _ => by fun_prop
  have hg := fun p : Fin lx.length × Fin ly.length => gauss_square (hz.law p.1 p.2)
  obtain ⟨a0, a1, a2, a4⟩ := sum_moments hind (fun p => ((hz.meas p.1 p.2).pow_const 2).sub_const 1) (fun p => (hg p).1) (κ := 15) (by norm_num) (fun p => (hg p).2.1)
    (fun p => (hg p).2.2.1) (fun p => (hg p).2.2.2) (fun p => lx[p.1] * ly[p.2]) Finset.univ
  have e : ∀ ω, ∑ p : Fin lx.length × Fin ly.length, lx[p.1] * ly[p.2] * (z ω p.1 p.2 ^ 2 - 1) = nullSample true lx ly (z ω) := fun ω => by
    rw [c146_sample, Fintype.sum_prod_type]
    simp only [if_true]
  have eS : 2 * ∑ p : Fin lx.length × Fin ly.length, (lx[p.1] * ly[p.2]) ^ 2 = s ^ 2 := by
    have h1 : ∀ l : List ℝ, (l.map fun x => x ^ 2).sum = ∑ i : Fin l.length, l[i] ^ 2 := fun l => by
      rw [← List.sum_ofFn]
      congr 1
      apply List.ext_getElem
      · simp
      · intro i h1 h2
        simp
    rw [hS, h1, h1, Fintype.sum_prod_type, Finset.sum_mul_sum]
    simp only [mul_pow]
  simp only [e, eS] at a0 a1 a2 a4
  have := positive_share (null_meas true lx ly hz) a0 hs (by norm_num) a1 a2 a4 ht (by linarith)
  norm_num at this ⊢
  exact this

end draws

theorem symm_matrix {K : Mat n} (hK : K.IsSymm) (i j : Fin n) : centerKernelMatrix K j i = centerKernelMatrix K i j := by
  unfold centerKernelMatrix
  simp only [hK.apply i j]
  ring

theorem sq_trace_center {K : Mat n} (hK : K.IsSymm) : (centerKernelMatrix K * centerKernelMatrix K).trace = vStat K K := by
  unfold vStat Matrix.trace
  refine Finset.sum_congr rfl fun i _ => ?_
  rw [Matrix.diag_apply, Matrix.mul_apply]
  exact Finset.sum_congr rfl fun j _ => by rw [symm_matrix hK i j]

theorem zeroDiag_symm {K : Mat n} (hK : K.IsSymm) : (zeroDiag K).IsSymm := by
  ext i j
  by_cases h : i = j
  · subst h; rfl
  · rw [Matrix.transpose_apply, zeroDiag_off _ h, zeroDiag_off _ (Ne.symm h), hK.apply]

/-- The squares of the eigenvalues after the diagonal has been set to zero. -/
theorem zeroDiag_sq (hn : n ≠ 0) {K : Mat n} (hK : K.IsSymm) (h1 : ∀ i, K i i = 1) (hle : ∀ i j, |K i j| ≤ 1) : vStat K K - 8 * n ≤ vStat (zeroDiag K) (zeroDiag K) := by
  have hn' : (n : ℝ) ≠ 0 := by exact_mod_cast hn
  have hz : ∀ i j, zeroDiag K i j = K i j - if i = j then 1 else 0 := fun i j => by
    by_cases h : i = j
    · subst h; simp [zeroDiag, h1]
    · simp [zeroDiag, h]
  have hcs : ∀ j, colSums (zeroDiag K) j = colSums K j - 1 := fun j => by
    unfold colSums
    simp only [hz, Finset.sum_sub_distrib, Finset.sum_ite_eq', Finset.mem_univ, if_true]
  have hvs : vecSum (colSums (zeroDiag K)) = vecSum (colSums K) - n := by
    unfold vecSum
    simp only [hcs, Finset.sum_sub_distrib, Finset.sum_const, Finset.card_univ, Fintype.card_fin, nsmul_eq_mul, mul_one]
  have hc : ∀ i j, centerKernelMatrix (zeroDiag K) i j = centerKernelMatrix K i j - ((if i = j then 1 else 0) - 1 / n) := fun i j => by
    unfold centerKernelMatrix
    simp only [hz, hcs, hvs]
    field_simp
    ring
  have htr : (centerKernelMatrix K).trace ≤ 4 * n := by
    rw [centerKernelMatrix_eq fun i j => hK.apply j i]
    exact trace_center_le hle
  unfold vStat
  simp only [hc]
  have e : ∀ i j : Fin n, centerKernelMatrix K i j * centerKernelMatrix K i j - 2 * (centerKernelMatrix K i j * (if i = j then 1 else 0)) + 2 / n * centerKernelMatrix K i j ≤
      (centerKernelMatrix K i j - ((if i = j then 1 else 0) - 1 / n)) * (centerKernelMatrix K i j - ((if i = j then 1 else 0) - 1 / n)) := fun i j => by
    have : 0 ≤ ((if i = j then (1 : ℝ) else 0) - 1 / n) ^ 2 := sq_nonneg _
    have h2 : (2 : ℝ) / n = 2 * (1 / n) := by ring
    rw [h2]
    nlinarith
  refine le_trans ?_ (Finset.sum_le_sum fun i _ => Finset.sum_le_sum fun j _ => e i j)
  have e2 : ∑ i : Fin n, ∑ j : Fin n, centerKernelMatrix K i j * (if i = j then 1 else 0) = (centerKernelMatrix K).trace := by
    unfold Matrix.trace
    refine Finset.sum_congr rfl fun i _ => ?_
    simp
  simp only [Finset.sum_add_distrib, Finset.sum_sub_distrib, ← Finset.mul_sum, e2, center_row hn hK, mul_zero, Finset.sum_const_zero]
  linarith

section data
variable {Ω Ω' : Type} [MeasurableSpace Ω] [MeasurableSpace Ω'] {P : Measure Ω} [IsProbabilityMeasure P] {Q : Measure Ω'} [IsProbabilityMeasure Q]

/-- C180. With the default setting, if the variables are dependent then, with probability one over the records, the probability over the draws that the p-value is
the least possible tends to one, for every number of draws. -/
theorem c180_power {ev : (k : Nat) → Matrix (Fin k) (Fin k) ℝ → List ℝ} (hev : EigvalsCorrect ev) {wx wy : ℝ} (hwx : 0 < wx) (hwy : 0 < wy) {X : ℕ → Ω → Fin d → ℝ}
    {Y : ℕ → Ω → Fin e → ℝ} (h : DrawnPairs P X Y) (hdep : ¬ IndepFun (X 0) (Y 0) P) {z : ℕ → Ω' → ℕ → ℕ → ℝ} (hz : ∀ k, Normal Q (z k)) :
    ∀ᵐ ω ∂P, ∀ m : ℕ, Tendsto (fun N : ℕ => Q.real {ω' | spectralTest (ev N) false (List.ofFn fun k : Fin m => z k ω') (gaussianWidth wx (upto X N ω))
      (gaussianWidth wy (upto Y N ω)) = 1 / (1 + (m : ℝ))}) atTop (𝓝 1) := by
  obtain ⟨D, hD0, hD, hl⟩ := c178_vstat hwx hwy h
  have hDpos : 0 < D := lt_of_le_of_ne hD0 fun h0 => hdep (hD.1 h0.symm)
  filter_upwards [hl] with ω hω m
  have hlow : Tendsto (fun N : ℕ => 1 - m * (32 / (D * N))) atTop (𝓝 1) := by
    have := ((Tendsto.const_div_atTop ((tendsto_natCast_atTop_atTop (R := ℝ)).const_mul_atTop hDpos) 32).const_mul (m : ℝ)).const_sub 1
    simpa using this
  refine tendsto_of_tendsto_of_tendsto_of_le_of_le' hlow tendsto_const_nhds ?_ (Eventually.of_forall fun N => measureReal_le_one)
  filter_upwards [hω.eventually (lt_mem_nhds (by linarith : D / 2 < D)), eventually_ge_atTop 1] with N a1 a2
  have hN : (1 : ℝ) ≤ N := by exact_mod_cast a2
  obtain ⟨K, hK⟩ : ∃ K : Mat N, K = gaussianWidth wx (upto X N ω) := ⟨_, rfl⟩
  obtain ⟨L, hL⟩ : ∃ L : Mat N, L = gaussianWidth wy (upto Y N ω) := ⟨_, rfl⟩
  have hKs : K.IsSymm := by ext i j; rw [hK]; exact gaussianWidth_symm wx _ j i
  have hLs : L.IsSymm := by ext i j; rw [hL]; exact gaussianWidth_symm wy _ j i
  have hKc : (centerKernelMatrix K).PosSemidef := by
    rw [centerKernelMatrix_eq fun i j => hKs.apply j i]
    exact center_psd (hK ▸ gaussianWidth_psd hwx.le _)
  have hLc : (centerKernelMatrix L).PosSemidef := by
    rw [centerKernelMatrix_eq fun i j => hLs.apply j i]
    exact center_psd (hL ▸ gaussianWidth_psd hwy.le _)
  have tK : (centerKernelMatrix K).trace ≤ 4 * N := by
    rw [centerKernelMatrix_eq fun i j => hKs.apply j i]
    exact trace_center_le (hK ▸ gaussianWidth_le wx hwx.le _)
  have tL : (centerKernelMatrix L).trace ≤ 4 * N := by
    rw [centerKernelMatrix_eq fun i j => hLs.apply j i]
    exact trace_center_le (hL ▸ gaussianWidth_le wy hwy.le _)
  rw [← hK, ← hL] at a1 ⊢
  obtain ⟨-, px, sx, -⟩ := eigvals_ok hev hKc
  obtain ⟨-, py, sy, -⟩ := eigvals_ok hev hLc
  obtain ⟨lx, hlx⟩ : ∃ lx, lx = ev N (centerKernelMatrix K) := ⟨_, rfl⟩
  obtain ⟨ly, hly⟩ : ∃ ly, ly = ev N (centerKernelMatrix L) := ⟨_, rfl⟩
  rw [← hlx] at px sx
  rw [← hly] at py sy
  have htest : ∀ draws, spectralTest (ev N) false draws K L = shareAbove (draws.map fun z => some (nullSample false lx ly z)) (some (N * vStat K L)) := fun draws => by
    unfold spectralTest withShuffles
    simp only [Bool.false_eq_true, if_false, hlx, hly, Option.map_some]
  have hv : D / 2 * (N : ℝ) ^ 2 < vStat K L := (lt_div_iff₀ (by positivity)).1 a1
  obtain ⟨T, hT⟩ : ∃ T, T = (N : ℝ) * vStat K L := ⟨_, rfl⟩
  have hT0 : 0 < T := hT ▸ mul_pos (by linarith) (lt_trans (by positivity) hv)
  have hTge : D / 2 * (N : ℝ) ^ 3 ≤ T := by
    rw [hT]
    have := mul_le_mul_of_nonneg_left hv.le (by linarith : (0 : ℝ) ≤ N)
    refine le_trans (le_of_eq ?_) this
    ring
  have hone : ∀ k, Q.real {ω' | T < nullSample false lx ly (z k ω')} ≤ 32 / (D * N) := fun k => by
    obtain ⟨i1, i2⟩ := null_mean lx ly (hz k)
    have hnn : ∀ ω', 0 ≤ nullSample false lx ly (z k ω') := fun ω' => by
      rw [c146_sample]
      refine Finset.sum_nonneg fun i _ => Finset.sum_nonneg fun j _ => mul_nonneg (mul_nonneg (px _ (List.getElem_mem _)) (py _ (List.getElem_mem _))) ?_
      simp only [Bool.false_eq_true, if_false]
      positivity
    have h1 := mul_meas_ge_le_integral_of_nonneg (Eventually.of_forall hnn) i1 T
    rw [i2, sx, sy] at h1
    have h2 : Q.real {ω' | T < nullSample false lx ly (z k ω')} ≤ Q.real {ω' | T ≤ nullSample false lx ly (z k ω')} := measureReal_mono fun ω' (h : T < _) => show T ≤ _ from h.le
    have h3 : (centerKernelMatrix K).trace * (centerKernelMatrix L).trace ≤ 16 * (N : ℝ) ^ 2 := by
      have := mul_le_mul tK tL hLc.trace_nonneg (by positivity)
      linarith
    refine h2.trans ?_
    rw [le_div_iff₀ (by positivity)]
    have h4 : D / 2 * (N : ℝ) ^ 3 * Q.real {ω' | T ≤ nullSample false lx ly (z k ω')} ≤ 16 * (N : ℝ) ^ 2 :=
      (mul_le_mul_of_nonneg_right hTge measureReal_nonneg).trans (h1.trans h3)
    obtain ⟨q, hq⟩ : ∃ q, q = Q.real {ω' | T ≤ nullSample false lx ly (z k ω')} := ⟨_, rfl⟩
    rw [← hq] at h4 ⊢
    have hN2 : (0 : ℝ) < (N : ℝ) ^ 2 := by positivity
    refine le_of_mul_le_mul_right ?_ hN2
    linarith [show q * (D * N) * (N : ℝ) ^ 2 = 2 * (D / 2 * (N : ℝ) ^ 3 * q) by ring]
  have hB : MeasurableSet (⋂ k : Fin m, {ω' | nullSample false lx ly (z k ω') ≤ T}) :=
    MeasurableSet.iInter fun k => measurableSet_le (null_meas false lx ly (hz k)) measurable_const
  have hsub : (⋂ k : Fin m, {ω' | nullSample false lx ly (z k ω') ≤ T}) ⊆ {ω' | spectralTest (ev N) false (List.ofFn fun k : Fin m => z k ω') K L = 1 / (1 + (m : ℝ))} := fun ω' h => by
    rw [Set.mem_iInter] at h
    rw [Set.mem_ofPred_eq, htest, share_least]
    · simp
    · intro x hx
      rw [List.mem_map] at hx
      obtain ⟨y, hy, rfl⟩ := hx
      obtain ⟨k, rfl⟩ := List.mem_ofFn.1 hy
      simp only [gt, decide_eq_false_iff_not, not_lt]
      rw [← hT]
      exact h k
  refine le_trans ?_ (measureReal_mono hsub)
  have hc : Q.real (⋂ k : Fin m, {ω' | nullSample false lx ly (z k ω') ≤ T})ᶜ ≤ m * (32 / (D * N)) := by
    rw [Set.compl_iInter]
    refine (measureReal_iUnion_fintype_le _).trans ?_
    refine (Finset.sum_le_sum fun k _ => ?_).trans (le_of_eq (by simp : ∑ _k : Fin m, (32 / (D * N) : ℝ) = m * (32 / (D * N))))
    refine le_trans (le_of_eq ?_) (hone k)
    congr 1
    ext ω'
    simp
  rw [probReal_compl_eq_one_sub hB] at hc
  linarith

/-- A variable that is independent of itself is constant. -/
theorem const_of_self {X : Ω → Fin d → ℝ} (hX : Measurable X) (h : IndepFun X X P) : ∃ c, X =ᵐ[P] fun _ => c := by
  refine exists_eventuallyEq_const_of_forall_separating MeasurableSet fun U hU => ?_
  have h1 := (indepFun_iff_measure_inter_preimage_eq_mul.1 h) U U hU hU
  rw [Set.inter_self] at h1
  have h2 : P (X ⁻¹' U) = 0 ∨ P (X ⁻¹' U) = 1 := by
    by_cases h0 : P (X ⁻¹' U) = 0
    · exact Or.inl h0
    · refine Or.inr ?_
      have h3 : P (X ⁻¹' U) * P (X ⁻¹' U) = P (X ⁻¹' U) * 1 := by rw [← h1, mul_one]
      exact (ENNReal.mul_right_inj h0 (measure_ne_top _ _)).1 h3
  rcases h2 with h2 | h2
  · exact Or.inr (measure_eq_zero_iff_ae_notMem.1 h2)
  · exact Or.inl ((prob_compl_eq_zero_iff₀ (hX.nullMeasurable hU)).2 h2)

/-- C180. Expected: this is so with `unbiased=True` too. False: whatever the variables are, if neither is constant, then from some number of records on the mean
p-value over the draws is above a fixed number, for every number of draws. -/
theorem c180_unbiased_false {ev : (k : Nat) → Matrix (Fin k) (Fin k) ℝ → List ℝ} (hev : EigvalsCorrect ev) {wx wy : ℝ} (hwx : 0 < wx) (hwy : 0 < wy) {X : ℕ → Ω → Fin d → ℝ}
    {Y : ℕ → Ω → Fin e → ℝ} (h : DrawnPairs P X Y) (hX : ∀ c, ¬ X 0 =ᵐ[P] fun _ => c) (hY : ∀ c, ¬ Y 0 =ᵐ[P] fun _ => c) {z : ℕ → Ω' → ℕ → ℕ → ℝ} (hz : ∀ k, Normal Q (z k)) :
    ∀ᵐ ω ∂P, ∀ᶠ N : ℕ in atTop, ∀ m : ℕ, 1 / 135 ≤ ∫ ω', spectralTest (ev N) true (List.ofFn fun k : Fin m => z k ω') (gaussianWidth wx (upto X N ω))
      (gaussianWidth wy (upto Y N ω)) ∂Q := by
  have hXX : DrawnPairs P X X := ⟨h.measX, h.measX, h.indep.comp (fun _ z => (z.1, z.1)) fun _ => by fun_prop, fun s => (h.ident s).comp (u := fun z => (z.1, z.1)) (by fun_prop)⟩
  have hYY : DrawnPairs P Y Y := ⟨h.measY, h.measY, h.indep.comp (fun _ z => (z.2, z.2)) fun _ => by fun_prop, fun s => (h.ident s).comp (u := fun z => (z.2, z.2)) (by fun_prop)⟩
  obtain ⟨D, -, -, hl⟩ := c178_vstat hwx hwy h
  obtain ⟨Dx, x0, hDx, hlx⟩ := c178_vstat hwx hwx hXX
  obtain ⟨Dy, y0, hDy, hly⟩ := c178_vstat hwy hwy hYY
  have px : 0 < Dx := lt_of_le_of_ne x0 fun h0 => by
    obtain ⟨c, hc⟩ := const_of_self (h.measX 0) (hDx.1 h0.symm)
    exact hX c hc
  have py : 0 < Dy := lt_of_le_of_ne y0 fun h0 => by
    obtain ⟨c, hc⟩ := const_of_self (h.measY 0) (hDy.1 h0.symm)
    exact hY c hc
  filter_upwards [hl, hlx, hly] with ω hω hωx hωy
  have hN1 : ∀ c : ℝ, ∀ᶠ N : ℕ in atTop, c ≤ (N : ℝ) := fun c => (tendsto_natCast_atTop_atTop (R := ℝ)).eventually (eventually_ge_atTop c)
  filter_upwards [hω.eventually (gt_mem_nhds (lt_add_one D)), hωx.eventually (lt_mem_nhds (by linarith : Dx / 2 < Dx)), hωy.eventually (lt_mem_nhds (by linarith : Dy / 2 < Dy)),
    gap_tendsto.eventually (gt_mem_nhds one_pos), eventually_ge_atTop 4, hN1 (32 / Dx), hN1 (32 / Dy), hN1 (32 * (|D| + 2) / √(Dx * Dy / 8))] with N a1 a2 a3 a4 a5 a6 a7 a8 m
  have hN : (4 : ℝ) ≤ N := by exact_mod_cast a5
  obtain ⟨K, hK⟩ : ∃ K : Mat N, K = gaussianWidth wx (upto X N ω) := ⟨_, rfl⟩
  obtain ⟨L, hL⟩ : ∃ L : Mat N, L = gaussianWidth wy (upto Y N ω) := ⟨_, rfl⟩
  have hKs : K.IsSymm := by ext i j; rw [hK]; exact gaussianWidth_symm wx _ j i
  have hLs : L.IsSymm := by ext i j; rw [hL]; exact gaussianWidth_symm wy _ j i
  have hK1 : ∀ i j, |K i j| ≤ 1 := hK ▸ gaussianWidth_le wx hwx.le _
  have hL1 : ∀ i j, |L i j| ≤ 1 := hL ▸ gaussianWidth_le wy hwy.le _
  have hKd : ∀ i, K i i = 1 := fun i => by rw [hK]; simp [gaussianWidth, sqDist_self]
  have hLd : ∀ i, L i i = 1 := fun i => by rw [hL]; simp [gaussianWidth, sqDist_self]
  rw [← hK, ← hL] at a1 ⊢
  rw [← hK] at a2
  rw [← hL] at a3
  have hN2 : (0 : ℝ) < (N : ℝ) ^ 2 := by positivity
  obtain ⟨u, hu, hun⟩ := u_near a5 hKs hLs hK1 hL1
  have hsq : ∀ {K : Mat N}, K.IsSymm → ((ev N (centerKernelMatrix (zeroDiag K))).map fun x => x ^ 2).sum = vStat (zeroDiag K) (zeroDiag K) := fun {K} hs => by
    obtain ⟨w, V, hw, hp⟩ := hev N (centerKernelMatrix (zeroDiag K)) (by ext i j; exact symm_matrix (zeroDiag_symm hs) i j)
    rw [(hp.map _).sum_eq, List.map_ofFn, List.sum_ofFn, ← sq_trace_center (zeroDiag_symm hs)]
    conv_rhs => rw [← hw.2]
    rw [sq_trace hw.1]
    rfl
  obtain ⟨lx, hlx'⟩ : ∃ lx, lx = ev N (centerKernelMatrix (zeroDiag K)) := ⟨_, rfl⟩
  obtain ⟨ly, hly'⟩ : ∃ ly, ly = ev N (centerKernelMatrix (zeroDiag L)) := ⟨_, rfl⟩
  have sx := hsq hKs
  have sy := hsq hLs
  rw [← hlx'] at sx
  rw [← hly'] at sy
  have htest : ∀ draws, spectralTest (ev N) true draws K L = shareAbove (draws.map fun z => some (nullSample true lx ly z)) (some (N * u)) := fun draws => by
    unfold spectralTest withShuffles
    simp only [if_true, Bool.false_eq_true, if_false, hu, Option.map_some, hlx', hly']
    rfl
  have bx : Dx / 4 * (N : ℝ) ^ 2 ≤ vStat (zeroDiag K) (zeroDiag K) := by
    have h1 := zeroDiag_sq (by omega) hKs hKd hK1
    have h2 := (lt_div_iff₀ hN2).1 a2
    have h3 := (div_le_iff₀ px).1 a6
    nlinarith
  have by' : Dy / 4 * (N : ℝ) ^ 2 ≤ vStat (zeroDiag L) (zeroDiag L) := by
    have h1 := zeroDiag_sq (by omega) hLs hLd hL1
    have h2 := (lt_div_iff₀ hN2).1 a3
    have h3 := (div_le_iff₀ py).1 a7
    nlinarith
  have hS : Dx * Dy / 8 * ((N : ℝ) ^ 2) ^ 2 ≤ 2 * (vStat (zeroDiag K) (zeroDiag K) * vStat (zeroDiag L) (zeroDiag L)) := by
    have := mul_le_mul bx by' (by positivity) (le_trans (by positivity) bx)
    linarith
  have hS0 : 0 < 2 * (vStat (zeroDiag K) (zeroDiag K) * vStat (zeroDiag L) (zeroDiag L)) := lt_of_lt_of_le (by positivity) hS
  obtain ⟨s, hs⟩ : ∃ s, s = √(2 * (vStat (zeroDiag K) (zeroDiag K) * vStat (zeroDiag L) (zeroDiag L))) := ⟨_, rfl⟩
  have hs0 : 0 < s := hs ▸ Real.sqrt_pos.2 hS0
  have hs2 : s ^ 2 = 2 * ((lx.map fun x => x ^ 2).sum * (ly.map fun x => x ^ 2).sum) := by rw [sx, sy, hs, Real.sq_sqrt hS0.le]
  have hsl : √(Dx * Dy / 8) * (N : ℝ) ^ 2 ≤ s := by
    rw [hs, ← Real.sqrt_sq hN2.le, ← Real.sqrt_mul (by positivity)]
    exact Real.sqrt_le_sqrt hS
  have hul : u ≤ |D| + 2 := by
    have := (abs_le.1 hun).2
    have := le_abs_self D
    linarith
  have hT : 32 * max 0 (N * u) ≤ s := by
    have h1 : max 0 (N * u) ≤ N * (|D| + 2) := max_le (by positivity) (mul_le_mul_of_nonneg_left hul (by linarith))
    have hq : 0 < √(Dx * Dy / 8) := Real.sqrt_pos.2 (by positivity)
    have h2 := (div_le_iff₀ hq).1 a8
    have h3 : (N : ℝ) * (32 * (|D| + 2)) ≤ N * (N * √(Dx * Dy / 8)) := mul_le_mul_of_nonneg_left h2 (by linarith)
    nlinarith
  have hshare : ∀ k, 1 / 135 ≤ Q.real {ω' | N * u < nullSample true lx ly (z k ω')} := fun k =>
    (null_share lx ly (hz k) hs0 hs2 (le_max_left _ _) hT).trans (measureReal_mono fun ω' (h : max 0 (N * u) < _) => show N * u < _ from lt_of_le_of_lt (le_max_right _ _) h)
  have hmeas : ∀ k, MeasurableSet {ω' | N * u < nullSample true lx ly (z k ω')} := fun k => measurableSet_lt measurable_const (null_meas true lx ly (hz k))
  have hval : ∀ ω', spectralTest (ev N) true (List.ofFn fun k : Fin m => z k ω') K L =
      (1 + ∑ k : Fin m, {ω' | N * u < nullSample true lx ly (z k ω')}.indicator (1 : Ω' → ℝ) ω') / (1 + m) := fun ω' => by
    rw [htest]
    unfold shareAbove
    rw [List.length_map, List.length_ofFn, List.countP_map, List.ofFn_eq_map, List.countP_map, List.countP_eq_length_filter, ← List.toFinset_card_of_nodup ((List.nodup_finRange m).filter _)]
    congr 2
    simp only [Set.indicator_apply, Set.mem_ofPred_eq, Pi.one_apply]
    rw [Finset.sum_boole]
    congr 2
    ext k
    simp [gt]
  have hint : ∀ k : Fin m, Integrable ({ω' | N * u < nullSample true lx ly (z k ω')}.indicator (1 : Ω' → ℝ)) Q := fun k =>
    IntegrableOn.integrable_indicator (integrable_const _).integrableOn (hmeas k)
  simp only [hval]
  rw [integral_div, integral_add (integrable_const _) (integrable_finsetSum _ fun k _ => hint k), integral_finsetSum _ fun k _ => hint k]
  simp only [integral_indicator_one (hmeas _), integral_const, probReal_univ, one_smul]
  have hsum : (m : ℝ) * (1 / 135) ≤ ∑ k : Fin m, Q.real {ω' | N * u < nullSample true lx ly (z k ω')} := by
    have := Finset.sum_le_sum fun (k : Fin m) (_ : k ∈ Finset.univ) => hshare k
    simpa using this
  rw [le_div_iff₀ (by positivity)]
  linarith

end data

section examples

/-- Independent normal draws. -/
theorem exDraws : ∃ (Ω : Type) (_ : MeasurableSpace Ω) (Q : Measure Ω) (_ : IsProbabilityMeasure Q) (z : ℕ → Ω → ℕ → ℕ → ℝ), ∀ k, Normal Q (z k) := by
  obtain ⟨Ω, mΩ, Q, E, hm, hl, hi, hQ⟩ := exists_iid (ℕ × ℕ × ℕ) (gaussianReal 0 1)
  exact ⟨Ω, mΩ, Q, hQ, fun k ω i j => E (k, i, j) ω, fun k => ⟨fun i j => hm _, hi.precomp (g := fun p : ℕ × ℕ => (k, p.1, p.2)) fun a b hab => by simpa [Prod.ext_iff] using hab, fun i j => hl _⟩⟩

example : ∃ (Ω Ω' : Type) (_ : MeasurableSpace Ω) (_ : MeasurableSpace Ω') (P : Measure Ω) (Q : Measure Ω') (X Y : ℕ → Ω → Fin 1 → ℝ) (z : ℕ → Ω' → ℕ → ℕ → ℝ),
    ∀ᵐ ω ∂P, Tendsto (fun N : ℕ => Q.real {ω' | spectralTest (stdVals N) false (List.ofFn fun k : Fin 1000 => z k ω') (gaussianWidth 1 (upto X N ω))
      (gaussianWidth 1 (upto Y N ω)) = 1 / (1 + 1000)}) atTop (𝓝 1) := by
  obtain ⟨Ω, mΩ, P, hP, X, Y, h, -, -, hd⟩ := exPairs
  obtain ⟨Ω', mΩ', Q, hQ, z, hz⟩ := exDraws
  refine ⟨Ω, Ω', mΩ, mΩ', P, Q, X, Y, z, ?_⟩
  filter_upwards [c180_power stdVals_correct one_pos one_pos h hd hz] with ω hω
  exact_mod_cast hω 1000

/-- Dependent variables for which the mean p-value stays above 1/135. -/
example : ∃ (Ω Ω' : Type) (_ : MeasurableSpace Ω) (_ : MeasurableSpace Ω') (P : Measure Ω) (Q : Measure Ω') (X Y : ℕ → Ω → Fin 1 → ℝ) (z : ℕ → Ω' → ℕ → ℕ → ℝ),
    ¬ IndepFun (X 0) (Y 0) P ∧ ∀ᵐ ω ∂P, ∀ᶠ N : ℕ in atTop, ∀ m : ℕ, 1 / 135 ≤ ∫ ω', spectralTest (stdVals N) true (List.ofFn fun k : Fin m => z k ω') (gaussianWidth 1 (upto X N ω))
      (gaussianWidth 1 (upto Y N ω)) ∂Q := by
  obtain ⟨Ω, mΩ, P, hP, X, Y, h, -, -, hd⟩ := exPairs
  obtain ⟨Ω', mΩ', Q, hQ, z, hz⟩ := exDraws
  refine ⟨Ω, Ω', mΩ, mΩ', P, Q, X, Y, z, hd, c180_unbiased_false stdVals_correct one_pos one_pos h (fun c hc => hd ?_) (fun c hc => hd ?_) hz⟩
  · exact (indepFun_const_left c (Y 0)).congr hc.symm (ae_eq_refl _)
  · exact (indepFun_const_right (X 0) c).congr (ae_eq_refl _) hc.symm

end examples

end Cdmir.SpectralTest
