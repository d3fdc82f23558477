import Verif.Model.Tetrad
import Mathlib.Probability.Moments.Covariance
import Mathlib.Probability.IdentDistrib
import Mathlib.Probability.HasLawExists

/-! Sample covariances of independent, identically distributed records. -/

namespace Cdmir.Sample
open BigOperators MeasureTheory ProbabilityTheory Filter
open scoped ProbabilityTheory Topology

variable {Ω : Type} {mΩ : MeasurableSpace Ω} {P : Measure Ω} [IsProbabilityMeasure P] {n : Nat}

/-- The first `N` records, as columns. -/
def data (X : ℕ → Ω → Fin n → ℝ) (N : ℕ) (ω : Ω) : Fin n → Fin N → ℝ := fun v s => X s ω v

/-- The covariances of the first `N` records, divided by `N`. -/
noncomputable def covN (X : ℕ → Ω → Fin n → ℝ) (N : ℕ) (ω : Ω) : Matrix (Fin n) (Fin n) ℝ :=
  Matrix.of fun a b => (∑ s : Fin N, (data X N ω a s - Tetrad.mean (data X N ω a)) * (data X N ω b s - Tetrad.mean (data X N ω b))) / N

/-- The covariances of a record. -/
noncomputable def covOf (P : Measure Ω) (X : ℕ → Ω → Fin n → ℝ) : Matrix (Fin n) (Fin n) ℝ := Matrix.of fun a b => cov[fun ω => X 0 ω a, fun ω => X 0 ω b; P]

/-- Records that are drawn independently from one distribution with fourth moments. -/
structure Drawn (P : Measure Ω) (X : ℕ → Ω → Fin n → ℝ) : Prop where
  indep : iIndepFun X P
  ident : ∀ s, IdentDistrib (X s) (X 0) P P
  moment : ∀ v, MemLp (fun ω => X 0 ω v) 4 P

/-- Chebyshev's inequality for the average of a function of the records. -/
theorem average {X : ℕ → Ω → Fin n → ℝ} (hi : iIndepFun X P) (hd : ∀ s, IdentDistrib (X s) (X 0) P P) {f : (Fin n → ℝ) → ℝ} (hf : Measurable f)
    (h2 : MemLp (fun ω => f (X 0 ω)) 2 P) {K : ℝ} (hK : 0 < K) {N : ℕ} (hN : 0 < N) :
    P {ω | K / √N ≤ |(∑ s : Fin N, f (X s ω)) / N - P[fun ω => f (X 0 ω)]|} ≤ ENNReal.ofReal (Var[fun ω => f (X 0 ω); P] / K ^ 2) := by
  have hN' : (0 : ℝ) < N := by exact_mod_cast hN
  have hid : ∀ s, IdentDistrib (fun ω => f (X s ω)) (fun ω => f (X 0 ω)) P P := fun s => (hd s).comp hf
  have hm : ∀ s, MemLp (fun ω => f (X s ω)) 2 P := fun s => (hid s).memLp_iff.2 h2
  have hind : iIndepFun (fun s ω => f (X s ω)) P := hi.comp (fun _ => f) fun _ => hf
  set Y : Ω → ℝ := ∑ s : Fin N, fun ω => f (X s ω) with hY
  have hYm : MemLp Y 2 P := by
    rw [hY]
    exact memLp_finsetSum' _ fun s _ => hm s
  have hYv : Var[Y; P] = N * Var[fun ω => f (X 0 ω); P] := by
    rw [hY, IndepFun.variance_sum (X := fun (s : Fin N) ω => f (X s ω)) (s := Finset.univ) (fun s _ => hm s) (fun s _ t _ hst => hind.indepFun fun e => hst (Fin.ext e)),
      Finset.sum_congr rfl fun (s : Fin N) _ => (hid s).variance_eq, Finset.sum_const, Finset.card_univ, Fintype.card_fin, nsmul_eq_mul]
  have hYa : ∀ ω, Y ω = ∑ s : Fin N, f (X s ω) := fun ω => by rw [hY, Finset.sum_apply]
  have hYe : ∫ ω, Y ω ∂P = (N : ℝ) * ∫ ω, f (X 0 ω) ∂P := by
    simp only [hYa]
    rw [integral_finsetSum (f := fun (s : Fin N) ω => f (X s ω)) _ fun s _ => (hm s).integrable one_le_two, Finset.sum_congr rfl fun (s : Fin N) _ => (hid s).integral_eq, Finset.sum_const,
      Finset.card_univ, Fintype.card_fin, nsmul_eq_mul]
  have hs : 0 < √(N : ℝ) := Real.sqrt_pos.2 hN'
  have key := meas_ge_le_variance_div_sq hYm (c := K * √N) (by positivity)
  rw [hYv, hYe, mul_pow, Real.sq_sqrt hN'.le, mul_comm (K ^ 2), mul_div_mul_left _ _ hN'.ne'] at key
  refine le_trans (measure_mono ?_) key
  intro ω hω
  simp only [Set.mem_ofPred_eq] at hω ⊢
  rw [hYa, show ∑ s : Fin N, f (X s ω) - N * P[fun ω => f (X 0 ω)] = N * ((∑ s : Fin N, f (X s ω)) / N - P[fun ω => f (X 0 ω)]) by field_simp,
    abs_mul, abs_of_pos hN']
  calc K * √N = N * (K / √N) := by
        rw [mul_div_assoc', eq_div_iff hs.ne', mul_assoc, Real.mul_self_sqrt hN'.le]; ring
    _ ≤ _ := mul_le_mul_of_nonneg_left hω hN'.le

theorem covN_eq (X : ℕ → Ω → Fin n → ℝ) {N : ℕ} (hN : 0 < N) (ω : Ω) (a b : Fin n) (p q : ℝ) :
    covN X N ω a b = (∑ s : Fin N, (X s ω a - p) * (X s ω b - q)) / N - (∑ s : Fin N, (X s ω a - p)) / N * ((∑ s : Fin N, (X s ω b - q)) / N) := by
  have hN' : (N : ℝ) ≠ 0 := by exact_mod_cast hN.ne'
  unfold covN data Tetrad.mean
  rw [Matrix.of_apply]
  set A := ∑ s : Fin N, X s ω a with hA
  set B := ∑ s : Fin N, X s ω b with hB
  have e : ∀ c d : ℝ, ∑ s : Fin N, (X s ω a - c) * (X s ω b - d) = (∑ s : Fin N, X s ω a * X s ω b) - d * A - c * B + N * (c * d) := by
    intro c d
    rw [hA, hB, Finset.mul_sum, Finset.mul_sum, ← Finset.sum_sub_distrib, ← Finset.sum_sub_distrib]
    have : (N : ℝ) * (c * d) = ∑ _s : Fin N, c * d := by rw [Finset.sum_const, Finset.card_univ, Fintype.card_fin, nsmul_eq_mul]
    rw [this, ← Finset.sum_add_distrib]
    exact Finset.sum_congr rfl fun s _ => by ring
  rw [e, e, Finset.sum_sub_distrib, Finset.sum_sub_distrib, ← hA, ← hB, Finset.sum_const, Finset.sum_const, Finset.card_univ, Fintype.card_fin, nsmul_eq_mul,
    nsmul_eq_mul]
  field_simp
  ring

/-- The covariances and means of the first `N` records are those of the distribution up to `D / √N`. -/
def Near (P : Measure Ω) (X : ℕ → Ω → Fin n → ℝ) (D : ℝ) (N : ℕ) (ω : Ω) : Prop :=
  (∀ a b, |covN X N ω a b - covOf P X a b| ≤ D / √(N : ℝ)) ∧ ∀ a, |(∑ s : Fin N, (X s ω a - P[fun ω => X 0 ω a])) / N| ≤ D / √(N : ℝ)

/-- The sample covariances and means are near those of the distribution, with high probability. -/
theorem dev {X : ℕ → Ω → Fin n → ℝ} (h : Drawn P X) : ∃ M ≥ 0, ∀ K > 0, ∀ N > 0,
    P {ω | ¬ Near P X (K + K ^ 2) N ω} ≤ ENNReal.ofReal (M / K ^ 2) := by
  set p : Fin n → ℝ := fun a => P[fun ω => X 0 ω a] with hp
  have hx2 : ∀ a, MemLp (fun ω => X 0 ω a) 2 P := fun a => (h.moment a).mono_exponent (by norm_num)
  have hc4 : ∀ a, MemLp (fun ω => X 0 ω a - p a) 4 P := fun a => (h.moment a).sub (memLp_const _)
  have h1 : ∀ a, MemLp (fun ω => X 0 ω a - p a) 2 P := fun a => (hc4 a).mono_exponent (by norm_num)
  have h2 : ∀ a b, MemLp (fun ω => (X 0 ω a - p a) * (X 0 ω b - p b)) 2 P := fun a b => by
    have : ENNReal.HolderTriple 4 4 2 := ⟨by
      rw [show (4 : ENNReal) = 2 * 2 by norm_num, ENNReal.mul_inv (by simp) (by simp), ← mul_add, ENNReal.inv_two_add_inv_two, mul_one]⟩
    exact (hc4 b).mul (p := 4) (q := 4) (r := 2) (hc4 a)
  set V1 : Fin n → ℝ := fun a => Var[fun ω => X 0 ω a - p a; P] with hV1
  set V2 : Fin n → Fin n → ℝ := fun a b => Var[fun ω => (X 0 ω a - p a) * (X 0 ω b - p b); P] with hV2
  have n1 : ∀ a, 0 ≤ V1 a := fun a => variance_nonneg _ _
  have n2 : ∀ a b, 0 ≤ V2 a b := fun a b => variance_nonneg _ _
  refine ⟨(∑ a, ∑ b, V2 a b) + ∑ a, V1 a, add_nonneg (Finset.sum_nonneg fun a _ => Finset.sum_nonneg fun b _ => n2 a b) (Finset.sum_nonneg fun a _ => n1 a),
    fun K hK N hN => ?_⟩
  have hN' : (0 : ℝ) < N := by exact_mod_cast hN
  have b1 : ∀ a, P {ω | K / √N ≤ |(∑ s : Fin N, (X s ω a - p a)) / N|} ≤ ENNReal.ofReal (V1 a / K ^ 2) := fun a => by
    have := average h.indep h.ident (f := fun x => x a - p a) (by fun_prop) (h1 a) hK hN
    have e : P[fun ω => X 0 ω a - p a] = 0 := by
      rw [integral_sub ((hx2 a).integrable one_le_two) (integrable_const _), integral_const]
      simp [hp]
    simpa only [e, sub_zero] using this
  have b2 : ∀ a b, P {ω | K / √N ≤ |(∑ s : Fin N, (X s ω a - p a) * (X s ω b - p b)) / N - covOf P X a b|} ≤ ENNReal.ofReal (V2 a b / K ^ 2) := fun a b =>
    average h.indep h.ident (f := fun x => (x a - p a) * (x b - p b)) (by fun_prop) (h2 a b) hK hN
  have hsub : {ω | ¬ Near P X (K + K ^ 2) N ω} ⊆
      (⋃ a, ⋃ b, {ω | K / √N ≤ |(∑ s : Fin N, (X s ω a - p a) * (X s ω b - p b)) / N - covOf P X a b|}) ∪
        ⋃ a, {ω | K / √N ≤ |(∑ s : Fin N, (X s ω a - p a)) / N|} := by
    intro ω hω
    by_contra hno
    simp only [Set.mem_union, Set.mem_iUnion, Set.mem_ofPred_eq, not_or, not_exists, not_le] at hno
    obtain ⟨k2, k1⟩ := hno
    have hK2 : K / √N ≤ (K + K ^ 2) / √N := div_le_div_of_nonneg_right (by nlinarith) (Real.sqrt_nonneg _)
    refine hω ⟨fun a b => ?_, fun a => (k1 a).le.trans hK2⟩
    by_contra hab
    rw [not_le] at hab
    have q2 := k2 a b
    have qa := k1 a
    have qb := k1 b
    rw [covN_eq X hN ω a b (p a) (p b)] at hab
    have hs1 : 1 ≤ √(N : ℝ) := Real.one_le_sqrt.2 (by exact_mod_cast hN)
    have hprod : |(∑ s : Fin N, (X s ω a - p a)) / N * ((∑ s : Fin N, (X s ω b - p b)) / N)| ≤ K ^ 2 / √N := by
      rw [abs_mul]
      calc _ ≤ K / √N * (K / √N) := mul_le_mul qa.le qb.le (abs_nonneg _) (by positivity)
        _ = K ^ 2 / √N * (1 / √N) := by field_simp
        _ ≤ K ^ 2 / √N * 1 := mul_le_mul_of_nonneg_left ((div_le_one (by positivity)).2 hs1) (by positivity)
        _ = _ := mul_one _
    have := abs_sub ((∑ s : Fin N, (X s ω a - p a) * (X s ω b - p b)) / N - covOf P X a b)
      ((∑ s : Fin N, (X s ω a - p a)) / N * ((∑ s : Fin N, (X s ω b - p b)) / N))
    rw [sub_right_comm] at this
    rw [add_div] at hab
    linarith
  refine (measure_mono hsub).trans ((measure_union_le _ _).trans ?_)
  have e1 : P (⋃ a, {ω | K / √N ≤ |(∑ s : Fin N, (X s ω a - p a)) / N|}) ≤ ENNReal.ofReal ((∑ a, V1 a) / K ^ 2) := by
    refine (measure_iUnion_fintype_le _ _).trans ?_
    rw [Finset.sum_div, ENNReal.ofReal_sum_of_nonneg fun a _ => div_nonneg (n1 a) (sq_nonneg K)]
    exact Finset.sum_le_sum fun a _ => b1 a
  have e2 : P (⋃ a, ⋃ b, {ω | K / √N ≤ |(∑ s : Fin N, (X s ω a - p a) * (X s ω b - p b)) / N - covOf P X a b|}) ≤
      ENNReal.ofReal ((∑ a, ∑ b, V2 a b) / K ^ 2) := by
    refine (measure_iUnion_fintype_le _ _).trans ?_
    rw [Finset.sum_div, ENNReal.ofReal_sum_of_nonneg fun a _ => div_nonneg (Finset.sum_nonneg fun b _ => n2 a b) (sq_nonneg K)]
    refine Finset.sum_le_sum fun a _ => (measure_iUnion_fintype_le _ _).trans ?_
    rw [Finset.sum_div, ENNReal.ofReal_sum_of_nonneg fun b _ => div_nonneg (n2 a b) (sq_nonneg K)]
    exact Finset.sum_le_sum fun b _ => b2 a b
  refine (add_le_add e2 e1).trans (le_of_eq ?_)
  rw [← ENNReal.ofReal_add (div_nonneg (Finset.sum_nonneg fun a _ => Finset.sum_nonneg fun b _ => n2 a b) (sq_nonneg K))
    (div_nonneg (Finset.sum_nonneg fun a _ => n1 a) (sq_nonneg K)), add_div]

/-- What fails only away from the covariances and means of the distribution has probability tending to zero. -/
theorem tendsto_bad {X : ℕ → Ω → Fin n → ℝ} (h : Drawn P X) {Good : ℕ → Ω → Prop} (hg : ∀ D > 0, ∃ N0, ∀ N ≥ N0, ∀ ω, Near P X D N ω → Good N ω) :
    Tendsto (fun N => P {ω | ¬ Good N ω}) atTop (𝓝 0) := by
  obtain ⟨M, hM, hdev⟩ := dev h
  refine tendsto_order.2 ⟨fun c hc => absurd hc (by simp), fun c hc => ?_⟩
  obtain ⟨ε, hε0, hεc⟩ : ∃ ε : ℝ, 0 < ε ∧ ENNReal.ofReal ε < c := by
    obtain ⟨x, hx0, hx⟩ := ENNReal.lt_iff_exists_nnreal_btwn.1 hc
    refine ⟨x, by exact_mod_cast hx0, ?_⟩
    rwa [ENNReal.ofReal_coe_nnreal]
  set K := √(M / ε + 1) with hK
  have hK0 : 0 < K := Real.sqrt_pos.2 (by positivity)
  have hKM : M / K ^ 2 ≤ ε := by
    rw [hK, Real.sq_sqrt (by positivity), div_le_iff₀ (by positivity), mul_add, mul_div_cancel₀ _ hε0.ne']
    linarith
  obtain ⟨N0, hN0⟩ := hg (K + K ^ 2) (by positivity)
  filter_upwards [eventually_ge_atTop (max N0 1)] with N hN
  have hN1 : N0 ≤ N := (le_max_left _ _).trans hN
  have hN2 : 0 < N := (le_max_right _ _).trans hN
  refine lt_of_le_of_lt (measure_mono fun ω hω => ?_) (lt_of_le_of_lt ((hdev K hK0 N hN2).trans (ENNReal.ofReal_le_ofReal hKM)) hεc)
  exact fun q => hω (hN0 N hN1 ω q)

/-- What holds of all covariances at a distance of order `1 / √N` holds of the sample with probability tending to one. -/
theorem tendsto_good {X : ℕ → Ω → Fin n → ℝ} (h : Drawn P X) {Good : ℕ → Ω → Prop}
    (hg : ∀ D > 0, ∃ N0, ∀ N ≥ N0, ∀ ω, (∀ a b, |covN X N ω a b - covOf P X a b| ≤ D / √(N : ℕ)) → Good N ω) :
    Tendsto (fun N => P {ω | Good N ω}) atTop (𝓝 1) := by
  have hb := tendsto_bad h (Good := Good) fun D hD => by
    obtain ⟨N0, hN0⟩ := hg D hD
    exact ⟨N0, fun N hN ω hω => hN0 N hN ω hω.1⟩
  refine tendsto_of_tendsto_of_tendsto_of_le_of_le (g := fun N => 1 - P {ω | ¬ Good N ω}) (h := fun _ => 1) ?_ tendsto_const_nhds (fun N => ?_) fun N => prob_le_one
  · simpa using ENNReal.Tendsto.sub tendsto_const_nhds hb (Or.inl ENNReal.one_ne_top)
  · rw [tsub_le_iff_right, ← measure_univ (μ := P)]
    refine (measure_mono fun ω _ => ?_).trans (measure_union_le _ _)
    by_cases hω : Good N ω
    · exact Or.inl hω
    · exact Or.inr hω

end Cdmir.Sample
