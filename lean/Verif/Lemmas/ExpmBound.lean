import Verif.Lemmas.Expm

/-! Distance of the polynomials from the exponential, in any complete normed algebra. -/

namespace Cdmir.Expm
open Finset NormedSpace

section
variable {R : Type*} [NormedRing R] [NormedAlgebra ℝ R] [CompleteSpace R]

/-- The Taylor polynomial. -/
noncomputable def partSum (m : ℕ) (a : R) : R := ∑ k ∈ range m, (1 / (k.factorial : ℝ)) • a ^ k

theorem exp_tail [NormOneClass R] (m : ℕ) (a : R) {ν : ℝ} (hν : ‖a‖ ≤ ν) : ‖exp a - partSum m a‖ ≤ ν ^ m / m.factorial * Real.exp ν := by
  let _ : NormedAlgebra ℚ R := NormedAlgebra.restrictScalars ℚ ℝ R
  have h0 : 0 ≤ ν := (norm_nonneg a).trans hν
  have hs : HasSum (fun k : ℕ => ((k.factorial : ℝ)⁻¹) • a ^ k) (exp a) := exp_series_hasSum_exp' (𝕂 := ℝ) a
  have ht := (hasSum_nat_add_iff' m).2 hs
  have hpart : ∑ k ∈ range m, ((k.factorial : ℝ)⁻¹) • a ^ k = partSum m a := by simp only [partSum, one_div]
  rw [hpart] at ht
  have hr : HasSum (fun k : ℕ => ν ^ m / m.factorial * (ν ^ k / k.factorial)) (ν ^ m / m.factorial * Real.exp ν) := by
    refine HasSum.mul_left _ ?_
    have := NormedSpace.expSeries_div_hasSum_exp (𝔸 := ℝ) ν
    rwa [← Real.exp_eq_exp_ℝ] at this
  rw [← ht.tsum_eq, ← hr.tsum_eq]
  refine tsum_of_norm_bounded hr.summable.hasSum fun k => ?_
  rw [norm_smul, Real.norm_eq_abs, abs_of_nonneg (by positivity)]
  have h1 : ‖a ^ (k + m)‖ ≤ ν ^ (k + m) := (norm_pow_le a _).trans (pow_le_pow_left₀ (norm_nonneg _) hν _)
  have h2 : ((m.factorial * k.factorial : ℕ) : ℝ) ≤ ((k + m).factorial : ℕ) := by
    rw [mul_comm]; exact_mod_cast Nat.factorial_mul_factorial_dvd_factorial_add k m |> Nat.le_of_dvd (Nat.factorial_pos _)
  have h3 : (0 : ℝ) < (m.factorial * k.factorial : ℕ) := by exact_mod_cast Nat.mul_pos (Nat.factorial_pos _) (Nat.factorial_pos _)
  calc ((k + m).factorial : ℝ)⁻¹ * ‖a ^ (k + m)‖ ≤ ((m.factorial * k.factorial : ℕ) : ℝ)⁻¹ * ν ^ (k + m) :=
        mul_le_mul (inv_anti₀ h3 h2) h1 (norm_nonneg _) (inv_nonneg.2 h3.le)
    _ = _ := by push_cast; rw [pow_add, mul_inv]; ring

omit [CompleteSpace R] in
theorem sum_sub_le [NormOneClass R] {c e : ℕ → ℝ} {m : ℕ} (hc : ∀ k < m, |c k - 1 / (k.factorial : ℝ)| ≤ e k) (a : R) {ν : ℝ} (hν : ‖a‖ ≤ ν) :
    ‖∑ k ∈ range m, c k • a ^ k - partSum m a‖ ≤ ∑ k ∈ range m, e k * ν ^ k := by
  rw [partSum, ← sum_sub_distrib]
  refine (norm_sum_le _ _).trans (sum_le_sum fun k hk => ?_)
  rw [← sub_smul, norm_smul, Real.norm_eq_abs]
  have h1 : ‖a ^ k‖ ≤ ν ^ k := (norm_pow_le a _).trans (pow_le_pow_left₀ (norm_nonneg _) hν _)
  have h2 := hc k (mem_range.1 hk)
  exact mul_le_mul h2 h1 (norm_nonneg _) ((abs_nonneg _).trans h2)

theorem norm_exp_le' [NormOneClass R] (a : R) : ‖exp a‖ ≤ Real.exp ‖a‖ := by
  have := exp_tail 0 a le_rfl
  simpa [partSum] using this

omit [NormedAlgebra ℝ R] [CompleteSpace R] in
/-- Powers of two elements that are close together. -/
theorem norm_pow_sub_pow_le {X Y : R} {M d : ℝ} (hX : ‖X‖ ≤ M) (hY : ‖Y‖ ≤ M) (hd : ‖X - Y‖ ≤ d) [NormOneClass R] (N : ℕ) :
    ‖X ^ N - Y ^ N‖ ≤ N * d * M ^ (N - 1) := by
  have hM : 0 ≤ M := (norm_nonneg _).trans hX
  have hd0 : 0 ≤ d := (norm_nonneg _).trans hd
  induction N with
  | zero => simp
  | succ N ih =>
    have e : X ^ (N + 1) - Y ^ (N + 1) = (X ^ N - Y ^ N) * X + Y ^ N * (X - Y) := by rw [pow_succ, pow_succ]; noncomm_ring
    rw [e]
    refine (norm_add_le _ _).trans ?_
    have h1 : ‖(X ^ N - Y ^ N) * X‖ ≤ N * d * M ^ (N - 1) * M := (norm_mul_le _ _).trans (mul_le_mul ih hX (norm_nonneg _) ((norm_nonneg _).trans ih))
    have h2 : ‖Y ^ N * (X - Y)‖ ≤ M ^ N * d :=
      (norm_mul_le _ _).trans (mul_le_mul ((norm_pow_le _ _).trans (pow_le_pow_left₀ (norm_nonneg _) hY _)) hd (norm_nonneg _) (pow_nonneg hM _))
    have h3 : N * d * M ^ (N - 1) * M = N * d * M ^ N := by
      cases N with
      | zero => simp
      | succ N => rw [Nat.add_sub_cancel, pow_succ]; ring
    rw [h3] at h1
    rw [Nat.add_sub_cancel]
    push_cast
    linarith [h1, h2]

/-- Scaling and squaring. -/
theorem scaling [NormOneClass R] {X a : R} {N : ℕ} (hN : 0 < N) {h ε : ℝ} (ha : ‖a‖ ≤ h) (hX : ‖X - exp a‖ ≤ ε * h) (hε : 0 ≤ ε) :
    ‖X ^ N - exp ((N : ℝ) • a)‖ ≤ ε * (N * h) * Real.exp ((1 + ε) * (N * h)) := by
  let _ : NormedAlgebra ℚ R := NormedAlgebra.restrictScalars ℚ ℝ R
  have h0 : 0 ≤ h := (norm_nonneg _).trans ha
  have he : exp ((N : ℝ) • a) = exp a ^ N := by rw [← exp_nsmul]; congr 1; exact Nat.cast_smul_eq_nsmul ℝ N a
  rw [he]
  set M := Real.exp ((1 + ε) * h) with hM
  have hY : ‖exp a‖ ≤ M := (norm_exp_le' a).trans (Real.exp_le_exp.2 (by nlinarith))
  have hXM : ‖X‖ ≤ M := by
    have h1 : ‖X‖ ≤ ε * h + Real.exp h := by
      calc ‖X‖ = ‖(X - exp a) + exp a‖ := by rw [sub_add_cancel]
        _ ≤ _ := (norm_add_le _ _).trans (add_le_add hX ((norm_exp_le' a).trans (Real.exp_le_exp.2 ha)))
    have h2 : M = Real.exp h * Real.exp (ε * h) := by rw [hM, ← Real.exp_add]; ring_nf
    have h3 := Real.add_one_le_exp (ε * h)
    have h4 : 1 ≤ Real.exp h := Real.one_le_exp h0
    have h5 : 0 ≤ ε * h := mul_nonneg hε h0
    rw [h2]
    nlinarith [Real.exp_pos h]
  refine (norm_pow_sub_pow_le hXM hY hX N).trans ?_
  have h1 : M ^ (N - 1) ≤ Real.exp ((1 + ε) * (N * h)) := by
    rw [hM, ← Real.exp_nat_mul]
    refine Real.exp_le_exp.2 ?_
    have : ((N - 1 : ℕ) : ℝ) ≤ N := by exact_mod_cast Nat.sub_le _ _
    have h2 : 0 ≤ (1 + ε) * h := by positivity
    nlinarith
  have h2 : (N : ℝ) * (ε * h) = ε * (N * h) := by ring
  rw [h2]
  exact mul_le_mul_of_nonneg_left h1 (by positivity)

theorem near_exact [NormOneClass R] {m : ℕ} {a : R} {ν θ E ε : ℝ} (hν : ‖a‖ ≤ ν) (hθ : ν ≤ θ) (hE : Real.exp θ ≤ E)
    (hn : θ ^ m / (m + 1).factorial * E ≤ ε) : ‖partSum (m + 1) a - exp a‖ ≤ ε * ν := by
  have h0 : 0 ≤ ν := (norm_nonneg a).trans hν
  rw [norm_sub_rev]
  refine (exp_tail (m + 1) a hν).trans ?_
  have h1 : Real.exp ν ≤ E := (Real.exp_le_exp.2 hθ).trans hE
  have h2 : ν ^ m / (m + 1).factorial * Real.exp ν ≤ θ ^ m / (m + 1).factorial * E :=
    mul_le_mul (by gcongr) h1 (Real.exp_pos _).le (by have := h0.trans hθ; positivity)
  calc ν ^ (m + 1) / (m + 1).factorial * Real.exp ν = (ν ^ m / (m + 1).factorial * Real.exp ν) * ν := by ring
    _ ≤ ε * ν := mul_le_mul_of_nonneg_right (h2.trans hn) h0

theorem near_coef [NormOneClass R] {c e : ℕ → ℝ} {m : ℕ} (hc : ∀ k < m + 1, |c k - 1 / (k.factorial : ℝ)| ≤ e k) {a : R} {ν θ E ε : ℝ} (hν : ‖a‖ ≤ ν)
    (hθ : ν ≤ θ) (hE : Real.exp θ ≤ E) (hn : ∑ k ∈ range m, e (k + 1) * θ ^ k + θ ^ m / (m + 1).factorial * E ≤ ε) :
    ‖∑ k ∈ range (m + 1), c k • a ^ k - exp a‖ ≤ e 0 + ε * ν := by
  have h0 : 0 ≤ ν := (norm_nonneg a).trans hν
  have he : ∀ k < m + 1, 0 ≤ e k := fun k hk => (abs_nonneg _).trans (hc k hk)
  have h1 := sum_sub_le hc a hν
  have h2 := near_exact (m := m) (ε := θ ^ m / (m + 1).factorial * E) hν hθ hE le_rfl
  rw [sum_range_succ' (fun k => e k * ν ^ k)] at h1
  have h3 : ∑ k ∈ range m, e (k + 1) * ν ^ (k + 1) ≤ (∑ k ∈ range m, e (k + 1) * θ ^ k) * ν := by
    rw [sum_mul]
    refine sum_le_sum fun k hk => ?_
    rw [pow_succ, ← mul_assoc]
    refine mul_le_mul_of_nonneg_right (mul_le_mul_of_nonneg_left (pow_le_pow_left₀ h0 hθ _) (he _ (by have := mem_range.1 hk; omega))) h0
  calc _ = ‖(∑ k ∈ range (m + 1), c k • a ^ k - partSum (m + 1) a) + (partSum (m + 1) a - exp a)‖ := by rw [sub_add_sub_cancel]
    _ ≤ _ := norm_add_le _ _
    _ ≤ (∑ k ∈ range m, e (k + 1) * θ ^ k) * ν + e 0 + θ ^ m / (m + 1).factorial * E * ν := by
      refine add_le_add (h1.trans ?_) h2
      simpa using h3
    _ ≤ _ := by nlinarith

end

/-! ### The numbers -/

/-- Bounds of the errors of the coefficients. -/
noncomputable def e12 : ℕ → ℝ
  | 0 => 1.11e-17
  | 1 => 9.4e-18
  | 2 => 5.3e-17
  | 3 => 1.7e-17
  | 4 => 4.2e-18
  | _ => 1e-18

/-- Bounds of the errors of the coefficients. -/
noncomputable def e18 : ℕ → ℝ
  | 0 => 2.81e-17
  | 1 => 4.5e-17
  | 2 => 5.1e-18
  | 3 => 1.6e-17
  | 4 => 2.5e-18
  | 5 => 1e-19
  | 6 => 1e-19
  | _ => 1e-20

theorem c12_near : ∀ k < 13, |c12 k - 1 / (k.factorial : ℝ)| ≤ e12 k := by
  intro k hk
  rw [abs_le]
  interval_cases k <;> norm_num [c12, e12, Nat.factorial]

theorem c18_near : ∀ k < 19, |c18 k - 1 / (k.factorial : ℝ)| ≤ e18 k := by
  intro k hk
  rw [abs_le]
  interval_cases k <;> norm_num [c18, e18, Nat.factorial]

/-- The accuracy claimed: a few units of the last place. -/
noncomputable def eps (precise : Bool) : ℝ := if precise then 1 / 2 ^ 51 else 1 / 2 ^ 23

theorem exp_le_small {θ E : ℝ} (h0 : 0 ≤ θ) (h1 : θ < 1) (hE : 1 / (1 - θ) ≤ E) : Real.exp θ ≤ E :=
  (Real.exp_bound_div_one_sub_of_interval h0 h1).trans hE

theorem exp_le_big (n : ℕ) {θ E : ℝ} (h0 : 0 ≤ θ) (h1 : θ < 1) (hE : 2.7182818286 ^ n * (1 / (1 - θ)) ≤ E) : Real.exp (n + θ) ≤ E := by
  rw [Real.exp_add]
  refine le_trans ?_ hE
  have h2 : Real.exp n ≤ 2.7182818286 ^ n := by
    rw [← Real.exp_one_pow]
    exact pow_le_pow_left₀ (Real.exp_pos _).le Real.exp_one_lt_d9.le n
  exact mul_le_mul h2 (Real.exp_bound_div_one_sub_of_interval h0 h1) (Real.exp_pos _).le (by positivity)

section
variable {R : Type*} [NormedRing R] [NormedAlgebra ℝ R] [CompleteSpace R] [NormOneClass R] {a : R} {ν : ℝ}

theorem near12_double (hν : ‖a‖ ≤ ν) (hL : 4.991228871115323e-02 ≤ ν) (hθ : ν ≤ 2.996158913811580e-01) : ‖taylor12 a - exp a‖ ≤ eps true * ν := by
  rw [taylor12_sum]
  have := near_coef (ε := 1.7e-16) c12_near hν hθ (exp_le_small (E := 1.43) (by norm_num) (by norm_num) (by norm_num))
    (by norm_num [sum_range_succ, e12, Nat.factorial])
  have h2 : e12 0 = 1.11e-17 := rfl
  rw [h2] at this
  simp only [eps, if_true]
  refine this.trans ?_
  norm_num at hL ⊢
  linarith

theorem near12_single (hν : ‖a‖ ≤ ν) (hL : 5.800524627688768e-01 ≤ ν) (hθ : ν ≤ 1.461661507209034e+00) : ‖taylor12 a - exp a‖ ≤ eps false * ν := by
  rw [taylor12_sum]
  have := near_coef (ε := 1.1e-7) c12_near hν hθ
    (by have := exp_le_big 1 (θ := 0.461661507209034) (E := 5.1) (by norm_num) (by norm_num) (by norm_num); norm_num at this ⊢; exact this)
    (by norm_num [sum_range_succ, e12, Nat.factorial])
  have h2 : e12 0 = 1.11e-17 := rfl
  rw [h2] at this
  simp only [eps, Bool.false_eq_true, if_false]
  refine this.trans ?_
  norm_num at hL ⊢
  linarith

theorem near18_double (hν : ‖a‖ ≤ ν) (hθ : ν ≤ 1.090863719290036e+00) : ‖taylor18 a - exp a‖ ≤ 2.81e-17 + 1 / 2 ^ 52 * ν := by
  rw [taylor18_sum]
  exact near_coef (ε := 1 / 2 ^ 52) c18_near hν hθ
    (by have := exp_le_big 1 (θ := 0.090863719290036) (E := 3) (by norm_num) (by norm_num) (by norm_num); norm_num at this ⊢; exact this)
    (by norm_num [sum_range_succ, e18, Nat.factorial])

theorem near18_single (hν : ‖a‖ ≤ ν) (hθ : ν ≤ 3.010066362817634e+00) : ‖taylor18 a - exp a‖ ≤ 2.81e-17 + 1e-7 * ν := by
  rw [taylor18_sum]
  exact near_coef (ε := 1e-7) c18_near hν hθ
    (by have := exp_le_big 3 (θ := 0.010066362817634) (E := 20.3) (by norm_num) (by norm_num) (by norm_num); norm_num at this ⊢; exact this)
    (by norm_num [sum_range_succ, e18, Nat.factorial])

/-- With the last polynomial, for matrices that are not too small. -/
theorem near18 {precise : Bool} (hν : ‖a‖ ≤ ν) (hL : 0.2 ≤ ν) (hθ : ν ≤ lastTheta precise) : ‖taylor18 a - exp a‖ ≤ eps precise * ν := by
  cases precise with
  | true =>
    refine (near18_double hν (by simpa [lastTheta] using hθ)).trans ?_
    simp only [eps, if_true]
    norm_num at hL ⊢
    linarith
  | false =>
    refine (near18_single hν (by simpa [lastTheta] using hθ)).trans ?_
    simp only [eps, Bool.false_eq_true, if_false]
    norm_num at hL ⊢
    linarith

/-- With the last polynomial, for matrices however small. -/
theorem near18_all {precise : Bool} (hν : ‖a‖ ≤ ν) (hθ : ν ≤ lastTheta precise) : ‖taylor18 a - exp a‖ ≤ eps precise * (1 + ν) := by
  have h0 : 0 ≤ ν := (norm_nonneg _).trans hν
  cases precise with
  | true =>
    refine (near18_double hν (by simpa [lastTheta] using hθ)).trans ?_
    simp only [eps, if_true]
    norm_num
    linarith
  | false =>
    refine (near18_single hν (by simpa [lastTheta] using hθ)).trans ?_
    simp only [eps, Bool.false_eq_true, if_false]
    norm_num
    linarith

omit [CompleteSpace R] [NormOneClass R] in
theorem partSum_one : partSum 2 a = 1 + a := by simp [partSum, sum_range_succ]

omit [CompleteSpace R] [NormOneClass R] in
theorem partSum_two : partSum 3 a = 1 + a + (1 / 2 : ℝ) • (a * a) := by simp [partSum, sum_range_succ, pow_two]

omit [CompleteSpace R] [NormOneClass R] in
theorem partSum_four : partSum 5 a = 1 + a + a * a * ((1 / 2 : ℝ) • (1 : R) + (1 / 6 : ℝ) • a + (1 / 24 : ℝ) • (a * a)) := by
  simp only [partSum, sum_range_succ, range_zero, sum_empty, Nat.factorial, mul_add, mul_smul_comm, mul_one]
  have h3 : a * a * a = a ^ 3 := by simp [pow_succ]
  have h4 : a * a * (a * a) = a ^ 4 := by simp [pow_succ, mul_assoc]
  rw [h3, h4, ← pow_two]
  norm_num
  abel

/-- The polynomial that `expm_taylor` chooses without scaling. -/
theorem near_first {precise : Bool} {deg : ℕ} (hν : ‖a‖ ≤ ν) (h : firstDeg precise ν = some deg) :
    ∃ X, taylorApprox a deg = some X ∧ ‖X - exp a‖ ≤ eps precise * ν := by
  have pick : ∀ {t1 t2 t3 t4 t5 t6 : ℝ}, (([1, 2, 4, 8, 12, 18].zip [t1, t2, t3, t4, t5, t6]).find? fun p => decide (ν ≤ p.2)).map Prod.fst = some deg →
      (deg = 1 ∧ ν ≤ t1) ∨ (deg = 2 ∧ ν ≤ t2) ∨ (deg = 4 ∧ ν ≤ t3) ∨ (deg = 8 ∧ ν ≤ t4) ∨ (deg = 12 ∧ t4 ≤ ν ∧ ν ≤ t5) ∨
        (deg = 18 ∧ t5 ≤ ν ∧ ν ≤ t6) := by
    intro t1 t2 t3 t4 t5 t6 h
    by_cases h1 : ν ≤ t1
    · simp [h1] at h; exact Or.inl ⟨h.symm, h1⟩
    by_cases h2 : ν ≤ t2
    · simp [h1, h2] at h; exact Or.inr (Or.inl ⟨h.symm, h2⟩)
    by_cases h3 : ν ≤ t3
    · simp [h1, h2, h3] at h; exact Or.inr (Or.inr (Or.inl ⟨h.symm, h3⟩))
    by_cases h4 : ν ≤ t4
    · simp [h1, h2, h3, h4] at h; exact Or.inr (Or.inr (Or.inr (Or.inl ⟨h.symm, h4⟩)))
    by_cases h5 : ν ≤ t5
    · simp [h1, h2, h3, h4, h5] at h; exact Or.inr (Or.inr (Or.inr (Or.inr (Or.inl ⟨h.symm, (not_le.1 h4).le, h5⟩))))
    by_cases h6 : ν ≤ t6
    · simp [h1, h2, h3, h4, h5, h6] at h; exact Or.inr (Or.inr (Or.inr (Or.inr (Or.inr ⟨h.symm, (not_le.1 h5).le, h6⟩))))
    · simp [h1, h2, h3, h4, h5, h6] at h
  cases precise with
  | true =>
    simp only [firstDeg, degs, thetas, if_true] at h
    rcases pick h with ⟨rfl, hθ⟩ | ⟨rfl, hθ⟩ | ⟨rfl, hθ⟩ | ⟨rfl, hθ⟩ | ⟨rfl, hL, hθ⟩ | ⟨rfl, hL, hθ⟩
    · refine ⟨_, rfl, ?_⟩
      rw [← partSum_one]
      exact near_exact hν hθ (exp_le_small (E := 1.1) (by norm_num) (by norm_num) (by norm_num)) (by norm_num [eps, Nat.factorial])
    · refine ⟨_, rfl, ?_⟩
      rw [← partSum_two]
      exact near_exact hν hθ (exp_le_small (E := 1.1) (by norm_num) (by norm_num) (by norm_num)) (by norm_num [eps, Nat.factorial])
    · refine ⟨_, rfl, ?_⟩
      rw [← partSum_four]
      exact near_exact hν hθ (exp_le_small (E := 1.1) (by norm_num) (by norm_num) (by norm_num)) (by norm_num [eps, Nat.factorial])
    · refine ⟨_, rfl, ?_⟩
      rw [taylor8_sum]
      exact near_exact hν hθ (exp_le_small (E := 1.1) (by norm_num) (by norm_num) (by norm_num)) (by norm_num [eps, Nat.factorial])
    · exact ⟨_, rfl, near12_double hν hL hθ⟩
    · exact ⟨_, rfl, near18 hν (le_trans (by norm_num) hL) (by simpa [lastTheta] using hθ)⟩
  | false =>
    simp only [firstDeg, degs, thetas, Bool.false_eq_true, if_false] at h
    rcases pick h with ⟨rfl, hθ⟩ | ⟨rfl, hθ⟩ | ⟨rfl, hθ⟩ | ⟨rfl, hθ⟩ | ⟨rfl, hL, hθ⟩ | ⟨rfl, hL, hθ⟩
    · refine ⟨_, rfl, ?_⟩
      rw [← partSum_one]
      exact near_exact hν hθ (exp_le_small (E := 1.1) (by norm_num) (by norm_num) (by norm_num)) (by norm_num [eps, Nat.factorial])
    · refine ⟨_, rfl, ?_⟩
      rw [← partSum_two]
      exact near_exact hν hθ (exp_le_small (E := 1.1) (by norm_num) (by norm_num) (by norm_num)) (by norm_num [eps, Nat.factorial])
    · refine ⟨_, rfl, ?_⟩
      rw [← partSum_four]
      exact near_exact hν hθ (exp_le_small (E := 1.1) (by norm_num) (by norm_num) (by norm_num)) (by norm_num [eps, Nat.factorial])
    · refine ⟨_, rfl, ?_⟩
      rw [taylor8_sum]
      exact near_exact hν hθ (exp_le_small (E := 2.4) (by norm_num) (by norm_num) (by norm_num)) (by norm_num [eps, Nat.factorial])
    · exact ⟨_, rfl, near12_single hν hL hθ⟩
    · exact ⟨_, rfl, near18 hν (le_trans (by norm_num) hL) (by simpa [lastTheta] using hθ)⟩

end

end Cdmir.Expm
