import Verif.Lemmas.Perturb

/-! Partial covariances of a matrix near a positive definite one, to the second order. -/

namespace Cdmir.Perturb
open BigOperators Spec Matrix

variable {n : Nat} {S T : Matrix (Fin n) (Fin n) ℝ}

theorem covar_sub_right (C : Matrix (Fin n) (Fin n) ℝ) (a b c : Fin n → ℝ) : covar C a (b - c) = covar C a b - covar C a c := by
  unfold covar
  rw [← Finset.sum_sub_distrib]
  refine Finset.sum_congr rfl fun u _ => ?_
  rw [← Finset.sum_sub_distrib]
  exact Finset.sum_congr rfl fun v _ => by simp only [Pi.sub_apply]; ring

theorem covar_sub_left (C : Matrix (Fin n) (Fin n) ℝ) (a b c : Fin n → ℝ) : covar C (a - b) c = covar C a c - covar C b c := by
  unfold covar
  rw [← Finset.sum_sub_distrib]
  refine Finset.sum_congr rfl fun u _ => ?_
  rw [← Finset.sum_sub_distrib]
  exact Finset.sum_congr rfl fun v _ => by simp only [Pi.sub_apply]; ring

theorem covar_diff_zero {C C' : Matrix (Fin n) (Fin n) ℝ} {i : Fin n} {Z : Fin n → Prop} {e e0 c : Fin n → ℝ} (he : Residual C i Z e) (he0 : Residual C' i Z e0)
    {B : Matrix (Fin n) (Fin n) ℝ} (hc : ∀ z, Z z → B.mulVec c z = 0) : covar B (e - e0) c = 0 := by
  rw [covar_eq]
  refine Finset.sum_eq_zero fun v _ => ?_
  by_cases hv : v = i
  · subst hv; simp [he.1, he0.1]
  · by_cases h : Z v
    · rw [hc v h, mul_zero]
    · have h1 : e v = 0 := by by_contra q; exact (he.2.1 v q).elim hv h
      have h2 : e0 v = 0 := by by_contra q; exact (he0.2.1 v q).elim hv h
      simp [h1, h2]

/-- The residual moves by at most a multiple of the distance. -/
theorem gap {m : ℝ} (hm : 0 < m) (hlow : ∀ a : Fin n → ℝ, m * ‖a‖ ^ 2 ≤ covar S a a) {δ : ℝ} (hδ : 0 ≤ δ)
    (hd : ∀ u v, |T u v - S u v| ≤ δ) (hδm : δ * n ^ 2 ≤ m / 2) {i : Fin n} {Z : Fin n → Prop} {e e0 : Fin n → ℝ} (he : Residual T i Z e) (he0 : Residual S i Z e0) :
    ‖e - e0‖ ≤ 2 * n ^ 2 * ‖e0‖ / m * δ := by
  set d := e - e0 with hdd
  have h1 : covar T d d = -covar (T - S) d e0 := by
    have p1 : covar T d e = 0 := covar_diff_zero he he0 he.2.2
    have p2 : covar S d e0 = 0 := covar_diff_zero he he0 he0.2.2
    calc covar T d d = covar T d (e - e0) := rfl
      _ = covar T d e - covar T d e0 := covar_sub_right T d e e0
      _ = _ := by rw [p1, covar_diff S T d e0, p2]; ring
  have h2 : m / 2 * ‖d‖ ^ 2 ≤ covar T d d := by
    rw [covar_diff S T]
    have k1 := hlow d
    have k2 := (abs_le.1 (covar_small hd d d)).1
    have k3 : δ * (n : ℝ) ^ 2 * ‖d‖ * ‖d‖ ≤ m / 2 * ‖d‖ ^ 2 := by
      calc δ * (n : ℝ) ^ 2 * ‖d‖ * ‖d‖ = δ * (n : ℝ) ^ 2 * ‖d‖ ^ 2 := by ring
        _ ≤ _ := mul_le_mul_of_nonneg_right hδm (sq_nonneg _)
    linarith
  have h3 := (abs_le.1 (covar_small hd d e0)).1
  have h4 : m / 2 * ‖d‖ ^ 2 ≤ δ * n ^ 2 * ‖d‖ * ‖e0‖ := by linarith
  by_cases h0 : ‖d‖ = 0
  · rw [h0]; positivity
  · have hp : 0 < ‖d‖ := lt_of_le_of_ne (norm_nonneg _) (Ne.symm h0)
    have h5 : m / 2 * ‖d‖ ≤ δ * n ^ 2 * ‖e0‖ := by
      refine le_of_mul_le_mul_right ?_ hp
      calc m / 2 * ‖d‖ * ‖d‖ = m / 2 * ‖d‖ ^ 2 := by ring
        _ ≤ _ := h4
        _ = _ := by ring
    rw [div_mul_eq_mul_div, le_div_iff₀ hm]
    linarith

/-- The partial covariance is that of the first residuals, up to the square of the distance. -/
theorem pair {m : ℝ} (hm : 0 < m) (hlow : ∀ a : Fin n → ℝ, m * ‖a‖ ^ 2 ≤ covar S a a) (ht : ∀ i j, T i j = T j i) {δ : ℝ} (hδ : 0 ≤ δ)
    (hd : ∀ u v, |T u v - S u v| ≤ δ) (hδm : δ * n ^ 2 ≤ m / 2) {i j : Fin n} {Z : Fin n → Prop} {e e0 c c0 : Fin n → ℝ} (he : Residual T i Z e)
    (he0 : Residual S i Z e0) (hc : Residual T j Z c) (hc0 : Residual S j Z c0) :
    |covar T e c - covar T e0 c0| ≤ n ^ 2 * (2 * n ^ 2 * ‖e0‖ / m) * ‖c0‖ * δ ^ 2 := by
  have h1 : covar T e c = covar T e c0 := by
    rw [LocalScore.covar_comm ht e c, LocalScore.covar_comm ht e c0, covar_shape ⟨hc.1, hc.2.1⟩ he.2.2, covar_shape ⟨hc0.1, hc0.2.1⟩ he.2.2]
  have h2 : covar T e c - covar T e0 c0 = covar (T - S) (e - e0) c0 := by
    rw [h1, ← covar_sub_left, covar_diff S T, covar_diff_zero he he0 hc0.2.2, zero_add]
  rw [h2]
  refine (covar_small hd _ _).trans ?_
  calc δ * (n : ℝ) ^ 2 * ‖e - e0‖ * ‖c0‖ ≤ δ * (n : ℝ) ^ 2 * (2 * n ^ 2 * ‖e0‖ / m * δ) * ‖c0‖ := by
        gcongr
        exact gap hm hlow hδ hd hδm he he0
    _ = _ := by ring

theorem second_order (hS : S.PosDef) {i j : Fin n} {Z : Fin n → Prop} {e0 c0 : Fin n → ℝ} (he0 : Residual S i Z e0) (hc0 : Residual S j Z c0) :
    ∃ δ0 > 0, ∃ L > 0, ∀ (T : Matrix (Fin n) (Fin n) ℝ) (δ : ℝ), (∀ i j, T i j = T j i) → (∀ u v, |T u v - S u v| ≤ δ) → 0 ≤ δ → δ ≤ δ0 →
      ∀ e c, Residual T i Z e → Residual T j Z c → |covar T e c - covar T e0 c0| ≤ L * δ ^ 2 ∧ |covar T e e - covar S e0 e0| ≤ L * δ ∧
        |covar T c c - covar S c0 c0| ≤ L * δ := by
  obtain ⟨m, hm, hlow⟩ := lower hS
  set F : (Fin n → ℝ) → (Fin n → ℝ) → ℝ := fun a b => n ^ 2 * (2 * n ^ 2 * ‖a‖ / m) * ‖b‖ with hF
  have hF0 : ∀ a b, 0 ≤ F a b := fun a b => by rw [hF]; positivity
  set L : ℝ := F e0 c0 + F e0 e0 + F c0 c0 + n ^ 2 * ‖e0‖ * ‖e0‖ + n ^ 2 * ‖c0‖ * ‖c0‖ + 1 with hL
  have q1 := hF0 e0 c0
  have q2 := hF0 e0 e0
  have q3 := hF0 c0 c0
  have q4 : 0 ≤ (n : ℝ) ^ 2 * ‖e0‖ * ‖e0‖ := by positivity
  have q5 : 0 ≤ (n : ℝ) ^ 2 * ‖c0‖ * ‖c0‖ := by positivity
  refine ⟨min 1 (m / (2 * (n ^ 2 + 1))), lt_min one_pos (by positivity), L, by rw [hL]; linarith, fun T δ ht hd hδ hδ0 e c he hc => ?_⟩
  have hδ1 : δ ≤ 1 := hδ0.trans (min_le_left _ _)
  have hδm : δ * n ^ 2 ≤ m / 2 := by
    have := hδ0.trans (min_le_right _ _)
    rw [le_div_iff₀ (by positivity)] at this
    nlinarith
  have hsq : δ ^ 2 ≤ δ := by nlinarith
  have own : ∀ {i : Fin n} {e e0 : Fin n → ℝ}, Residual T i Z e → Residual S i Z e0 → F e0 e0 + n ^ 2 * ‖e0‖ * ‖e0‖ ≤ L → |covar T e e - covar S e0 e0| ≤ L * δ := by
    intro i e e0 he he0 hle
    have p := pair hm hlow ht hδ hd hδm he he0 he he0
    have p' := covar_small hd e0 e0
    have e1 : covar T e e - covar S e0 e0 = (covar T e e - covar T e0 e0) + covar (T - S) e0 e0 := by rw [covar_diff S T e0 e0]; ring
    rw [e1]
    refine (abs_add_le _ _).trans ((add_le_add p p').trans ?_)
    have : F e0 e0 * δ ^ 2 ≤ F e0 e0 * δ := mul_le_mul_of_nonneg_left hsq (hF0 _ _)
    calc _ = F e0 e0 * δ ^ 2 + n ^ 2 * ‖e0‖ * ‖e0‖ * δ := by rw [hF]; ring
      _ ≤ (F e0 e0 + n ^ 2 * ‖e0‖ * ‖e0‖) * δ := by linarith
      _ ≤ _ := mul_le_mul_of_nonneg_right hle hδ
  refine ⟨(pair hm hlow ht hδ hd hδm he he0 hc hc0).trans ?_, own he he0 (by rw [hL]; linarith), own hc hc0 (by rw [hL]; linarith)⟩
  refine mul_le_mul_of_nonneg_right ?_ (sq_nonneg δ)
  change F e0 c0 ≤ L
  rw [hL]; linarith

end Cdmir.Perturb
