import Verif.Lemmas.BicGain
import Mathlib.Analysis.Normed.Module.FiniteDimension
import Mathlib.Topology.Algebra.Monoid

/-! Partial correlations of a matrix near a positive definite one. -/

namespace Cdmir.Perturb
open BigOperators Spec Matrix

variable {n : Nat} {S T : Matrix (Fin n) (Fin n) ℝ}

theorem covar_eq (C : Matrix (Fin n) (Fin n) ℝ) (a b : Fin n → ℝ) : covar C a b = ∑ u, a u * C.mulVec b u := by
  unfold covar mulVec dotProduct
  exact Finset.sum_congr rfl fun u _ => by rw [Finset.mul_sum]; exact Finset.sum_congr rfl fun v _ => by ring

theorem covar_dot (C : Matrix (Fin n) (Fin n) ℝ) (a : Fin n → ℝ) : covar C a a = dotProduct a (C.mulVec a) := covar_eq C a a

theorem covar_diff (S T : Matrix (Fin n) (Fin n) ℝ) (a b : Fin n → ℝ) : covar T a b = covar S a b + covar (T - S) a b := by
  unfold covar
  rw [← Finset.sum_add_distrib]
  refine Finset.sum_congr rfl fun u _ => ?_
  rw [← Finset.sum_add_distrib]
  exact Finset.sum_congr rfl fun v _ => by rw [Matrix.sub_apply]; ring

theorem covar_smul (C : Matrix (Fin n) (Fin n) ℝ) (t : ℝ) (a : Fin n → ℝ) : covar C (t • a) (t • a) = t ^ 2 * covar C a a := by
  unfold covar
  rw [Finset.mul_sum]
  refine Finset.sum_congr rfl fun u _ => ?_
  rw [Finset.mul_sum]
  exact Finset.sum_congr rfl fun v _ => by simp only [Pi.smul_apply, smul_eq_mul]; ring

theorem covar_add (C : Matrix (Fin n) (Fin n) ℝ) (hs : ∀ i j, C i j = C j i) (a b : Fin n → ℝ) :
    covar C (a + b) (a + b) = covar C a a + 2 * covar C b a + covar C b b := by
  have h := LocalScore.covar_comm hs a b
  have e : covar C (a + b) (a + b) = covar C a a + covar C a b + covar C b a + covar C b b := by
    unfold covar
    simp only [← Finset.sum_add_distrib]
    exact Finset.sum_congr rfl fun u _ => Finset.sum_congr rfl fun v _ => by simp only [Pi.add_apply]; ring
  rw [e, h]; ring

/-- A small matrix has a small form. -/
theorem covar_small {δ : ℝ} (hd : ∀ u v, |T u v - S u v| ≤ δ) (a b : Fin n → ℝ) : |covar (T - S) a b| ≤ δ * n ^ 2 * ‖a‖ * ‖b‖ := by
  unfold covar
  refine (Finset.abs_sum_le_sum_abs _ _).trans ?_
  have h1 : ∀ u ∈ Finset.univ, |∑ v, a u * (T - S) u v * b v| ≤ δ * n * ‖a‖ * ‖b‖ := by
    intro u _
    refine (Finset.abs_sum_le_sum_abs _ _).trans ?_
    have h2 : ∀ v ∈ Finset.univ, |a u * (T - S) u v * b v| ≤ δ * ‖a‖ * ‖b‖ := by
      intro v _
      rw [abs_mul, abs_mul, Matrix.sub_apply]
      have p1 : |a u| ≤ ‖a‖ := norm_le_pi_norm a u
      have p2 : |b v| ≤ ‖b‖ := norm_le_pi_norm b v
      have p3 := hd u v
      have p4 : 0 ≤ δ := (abs_nonneg _).trans p3
      calc |a u| * |T u v - S u v| * |b v| ≤ ‖a‖ * δ * ‖b‖ := by gcongr
        _ = _ := by ring
    refine (Finset.sum_le_card_nsmul _ _ _ h2).trans (le_of_eq ?_)
    rw [Finset.card_univ, Fintype.card_fin, nsmul_eq_mul]; ring
  refine (Finset.sum_le_card_nsmul _ _ _ h1).trans (le_of_eq ?_)
  rw [Finset.card_univ, Fintype.card_fin, nsmul_eq_mul]; ring

/-- A positive definite form is bounded below. -/
theorem lower (hS : S.PosDef) : ∃ m > 0, ∀ a : Fin n → ℝ, m * ‖a‖ ^ 2 ≤ covar S a a := by
  have hpos : ∀ a : Fin n → ℝ, a ≠ 0 → 0 < covar S a a := fun a ha => by
    rw [covar_dot]; exact (posDef_iff.1 hS).2 a ha
  have hcont : Continuous fun a : Fin n → ℝ => covar S a a := by
    unfold covar
    fun_prop
  by_cases hne : (Metric.sphere (0 : Fin n → ℝ) 1).Nonempty
  · obtain ⟨a0, h0, hmin⟩ := (isCompact_sphere (0 : Fin n → ℝ) 1).exists_isMinOn hne hcont.continuousOn
    have ha0 : a0 ≠ 0 := fun e => by rw [e] at h0; simp at h0
    refine ⟨covar S a0 a0, hpos a0 ha0, fun a => ?_⟩
    by_cases ha : a = 0
    · subst ha; simp [covar]
    · have hn : 0 < ‖a‖ := norm_pos_iff.2 ha
      have hm : (‖a‖⁻¹ • a) ∈ Metric.sphere (0 : Fin n → ℝ) 1 := by
        rw [mem_sphere_zero_iff_norm, norm_smul, norm_inv, norm_norm, inv_mul_cancel₀ hn.ne']
      have := isMinOn_iff.1 hmin _ hm
      rw [covar_smul, inv_pow] at this
      rwa [inv_mul_eq_div, le_div_iff₀ (by positivity)] at this
  · refine ⟨1, one_pos, fun a => ?_⟩
    have ha : a = 0 := by
      by_contra ha
      refine hne ⟨‖a‖⁻¹ • a, ?_⟩
      rw [mem_sphere_zero_iff_norm, norm_smul, norm_inv, norm_norm, inv_mul_cancel₀ (norm_ne_zero_iff.2 ha)]
    subst ha; simp [covar]

/-- The shape of a residual: `i` with coefficient one, and members of `Z`. -/
def Shape (i : Fin n) (Z : Fin n → Prop) (a : Fin n → ℝ) : Prop := a i = 1 ∧ ∀ v, a v ≠ 0 → v = i ∨ Z v

theorem covar_shape {C : Matrix (Fin n) (Fin n) ℝ} {i : Fin n} {Z : Fin n → Prop} {a b : Fin n → ℝ} (ha : Shape i Z a) (hb : ∀ z, Z z → C.mulVec b z = 0) :
    covar C a b = C.mulVec b i := by
  rw [covar_eq, Finset.sum_eq_single i]
  · rw [ha.1, one_mul]
  · intro v _ hv
    by_cases h : a v = 0
    · rw [h, zero_mul]
    · rw [hb v ((ha.2 v h).resolve_left hv), mul_zero]
  · simp

theorem shape_single (i : Fin n) (Z : Fin n → Prop) : Shape i Z (Pi.single i 1) :=
  ⟨by simp, fun v hv => Or.inl (by by_contra h; exact hv (Pi.single_eq_of_ne h 1))⟩

/-- The partial covariance of the second matrix is that of the first, up to the form of the difference. -/
theorem covar_step (ht : ∀ i j, T i j = T j i) {i j : Fin n} {Z : Fin n → Prop} {e c e0 c0 : Fin n → ℝ} (he : Residual T i Z e)
    (hc : Residual T j Z c) (he0 : Residual S i Z e0) (hc0 : Residual S j Z c0) : covar T e c = covar S e0 c0 + covar (T - S) e c0 := by
  have h1 : covar T e c = covar T e c0 := by
    rw [LocalScore.covar_comm ht e c, LocalScore.covar_comm ht e c0, covar_shape ⟨hc.1, hc.2.1⟩ he.2.2, covar_shape ⟨hc0.1, hc0.2.1⟩ he.2.2]
  have h2 : covar S e c0 = covar S e0 c0 := by
    rw [covar_shape ⟨he.1, he.2.1⟩ hc0.2.2, covar_shape ⟨he0.1, he0.2.1⟩ hc0.2.2]
  rw [h1, covar_diff S T, h2]

/-- The residual has the least variance. -/
theorem residual_le (hT : ∀ a, 0 ≤ covar T a a) (ht : ∀ i j, T i j = T j i) {i : Fin n} {Z : Fin n → Prop} {e : Fin n → ℝ} (he : Residual T i Z e) :
    covar T e e ≤ T i i := by
  have hii : covar T (Pi.single i 1) (Pi.single i 1) = T i i := by
    rw [covar_eq, Finset.sum_eq_single i]
    · simp [mulVec, dotProduct, Pi.single_apply]
    · intro v _ hv; rw [Pi.single_eq_of_ne hv, zero_mul]
    · simp
  have h := covar_add T ht e (Pi.single i 1 - e)
  have h0 : covar T (Pi.single i 1 - e) e = 0 := by
    have : covar T (Pi.single i 1 - e) e = covar T (Pi.single i 1) e - covar T e e := by
      unfold covar
      rw [← Finset.sum_sub_distrib]
      refine Finset.sum_congr rfl fun u _ => ?_
      rw [← Finset.sum_sub_distrib]
      exact Finset.sum_congr rfl fun v _ => by simp only [Pi.sub_apply]; ring
    rw [this, covar_shape (shape_single i Z) he.2.2, covar_shape ⟨he.1, he.2.1⟩ he.2.2, sub_self]
  rw [add_sub_cancel, hii, h0] at h
  have := hT (Pi.single i 1 - e)
  linarith

/-- Finitely many positive numbers are bounded below. -/
theorem below {ι : Type} [Fintype ι] {f : ι → ℝ} (h : ∀ t, 0 < f t) : ∃ κ > 0, ∀ t, κ ≤ f t := by
  have hp : ∀ t, 0 < 1 / f t := fun t => one_div_pos.2 (h t)
  have hs : 0 ≤ ∑ t, 1 / f t := Finset.sum_nonneg fun t _ => (hp t).le
  refine ⟨1 / ((∑ t, 1 / f t) + 1), by positivity, fun t => ?_⟩
  rw [div_le_iff₀ (by positivity)]
  have : 1 / f t ≤ (∑ t, 1 / f t) + 1 := (Finset.single_le_sum (f := fun t => 1 / f t) (fun t _ => (hp t).le) (Finset.mem_univ t)).trans (by linarith)
  calc 1 = f t * (1 / f t) := by rw [mul_one_div, div_self (h t).ne']
    _ ≤ _ := mul_le_mul_of_nonneg_left this (h t).le

/-- The square of the partial correlation of the variables with residuals `e` and `c`. -/
noncomputable def corrSq (C : Matrix (Fin n) (Fin n) ℝ) (e c : Fin n → ℝ) : ℝ := covar C e c ^ 2 / (covar C e e * covar C c c)

/-- Near a positive definite matrix, partial correlations that are zero stay as small as the distance, and those that are not stay away from zero. -/
theorem near (hS : S.PosDef) : ∃ δ0 > 0, ∃ L > 0, ∀ (T : Matrix (Fin n) (Fin n) ℝ) (δ : ℝ), (∀ i j, T i j = T j i) → (∀ u v, |T u v - S u v| ≤ δ) → δ ≤ δ0 →
    T.PosDef ∧ ∀ (i j : Fin n) (l : List (Fin n)) (e c : Fin n → ℝ), (i :: j :: l).Nodup → Residual T i (fun x => x ∈ l) e → Residual T j (fun x => x ∈ l) c →
      (PartialUncorr S i j (fun x => x ∈ l) → corrSq T e c ≤ L * δ ^ 2) ∧ (¬ PartialUncorr S i j (fun x => x ∈ l) → 1 / L ≤ corrSq T e c) := by
  have hs := LocalScore.posDef_symm hS
  obtain ⟨m, hm, hlow⟩ := lower hS
  -- partial covariances that are not zero
  have hone : ∀ t : Fin n × Fin n × Finset (Fin n), ∃ κ > 0, ∀ e0 c0, Residual S t.1 (fun x => x ∈ t.2.2) e0 → Residual S t.2.1 (fun x => x ∈ t.2.2) c0 →
      t.1 ∉ t.2.2 → t.2.1 ∉ t.2.2 → covar S e0 c0 ≠ 0 → κ ≤ |covar S e0 c0| := by
    rintro ⟨i, j, Z⟩
    by_cases h : ∃ e0 c0, Residual S i (fun x => x ∈ Z) e0 ∧ Residual S j (fun x => x ∈ Z) c0 ∧ i ∉ Z ∧ j ∉ Z ∧ covar S e0 c0 ≠ 0
    · obtain ⟨e0, c0, h1, h2, h3, h4, h5⟩ := h
      refine ⟨|covar S e0 c0|, abs_pos.2 h5, fun e1 c1 k1 k2 k3 k4 k5 => ?_⟩
      simp only at k1 k2 k3 k4
      rw [LocalScore.residual_unique hS (Z := fun x => x ∈ Z) h3 h1 k1, LocalScore.residual_unique hS (Z := fun x => x ∈ Z) h4 h2 k2]
    · exact ⟨1, one_pos, fun e1 c1 k1 k2 k3 k4 k5 => absurd ⟨e1, c1, k1, k2, k3, k4, k5⟩ h⟩
  choose F hF0 hF using hone
  obtain ⟨κ, hκ, hκF⟩ := below hF0
  -- the diagonal
  set A : ℝ := (∑ u, |S u u|) + m with hA
  have hA0 : m ≤ A := by
    have : 0 ≤ ∑ u, |S u u| := Finset.sum_nonneg fun u _ => abs_nonneg _
    linarith
  have hSA : ∀ u, S u u ≤ A - m := fun u => by
    have : |S u u| ≤ ∑ u, |S u u| := Finset.single_le_sum (f := fun u => |S u u|) (fun u _ => abs_nonneg _) (Finset.mem_univ u)
    have := (le_abs_self (S u u)).trans this
    rw [hA]; linarith
  set q : ℝ := n ^ 2 + 1 with hq
  have hq1 : 1 ≤ q := by rw [hq]; nlinarith [sq_nonneg (n : ℝ)]
  set B : ℝ := 2 * A / m with hB
  have hB0 : 0 < B := by rw [hB]; have := hm.trans_le hA0; positivity
  have hA1 : 0 < A := hm.trans_le hA0
  set δ0 : ℝ := min (m / (2 * q)) (κ / (2 * q * B)) with hδ0
  have hδ0p : 0 < δ0 := lt_min (by positivity) (by positivity)
  set L : ℝ := 4 * (q * B) ^ 2 / m ^ 2 + 4 * A ^ 2 / κ ^ 2 with hL
  have hL1 : 0 < 4 * (q * B) ^ 2 / m ^ 2 := by positivity
  have hL2 : 0 < 4 * A ^ 2 / κ ^ 2 := by positivity
  refine ⟨δ0, hδ0p, L, by rw [hL]; linarith, fun T δ ht hd hδ => ?_⟩
  have hqn : (n : ℝ) ^ 2 ≤ q := by rw [hq]; linarith
  -- facts about every matrix that is near
  have fact : ∀ (T : Matrix (Fin n) (Fin n) ℝ) (δ : ℝ), 0 ≤ δ → (∀ i j, T i j = T j i) → (∀ u v, |T u v - S u v| ≤ δ) → δ ≤ δ0 →
      (∀ a, m / 2 * ‖a‖ ^ 2 ≤ covar T a a) ∧ ∀ (i : Fin n) (Z : Fin n → Prop) (e : Fin n → ℝ), Residual T i Z e →
        ‖e‖ ^ 2 ≤ B ∧ m / 2 ≤ covar T e e ∧ covar T e e ≤ A := by
    intro T δ hδp ht hd hδ
    have h1 : δ * q ≤ m / 2 := by
      have := hδ.trans (min_le_left _ _)
      rw [le_div_iff₀ (by positivity)] at this
      linarith
    have hlo : ∀ a, m / 2 * ‖a‖ ^ 2 ≤ covar T a a := fun a => by
      rw [covar_diff S T]
      have h2 := hlow a
      have h3 := (abs_le.1 (covar_small hd a a)).1
      have h4 : δ * (n : ℝ) ^ 2 * ‖a‖ * ‖a‖ ≤ m / 2 * ‖a‖ ^ 2 := by
        have : δ * (n : ℝ) ^ 2 ≤ m / 2 := (mul_le_mul_of_nonneg_left hqn hδp).trans h1
        calc δ * (n : ℝ) ^ 2 * ‖a‖ * ‖a‖ = δ * (n : ℝ) ^ 2 * ‖a‖ ^ 2 := by ring
          _ ≤ _ := mul_le_mul_of_nonneg_right this (sq_nonneg _)
      linarith
    refine ⟨hlo, fun i Z e he => ?_⟩
    have hnn : ∀ a, 0 ≤ covar T a a := fun a => (by positivity : 0 ≤ m / 2 * ‖a‖ ^ 2).trans (hlo a)
    have hup : covar T e e ≤ A := by
      refine (residual_le hnn ht he).trans ?_
      have h2 := (abs_le.1 (hd i i)).2
      have h3 := hSA i
      have h4 : δ ≤ m := by nlinarith
      linarith
    have hn1 : 1 ≤ ‖e‖ := by
      have := norm_le_pi_norm e i
      rw [he.1, norm_one] at this
      exact this
    refine ⟨?_, ?_, hup⟩
    · rw [hB, le_div_iff₀ hm]
      have := (hlo e).trans hup
      linarith
    · exact (le_mul_of_one_le_right (by positivity) (one_le_pow₀ hn1)).trans (hlo e)
  have hδp : 0 ≤ δ ∨ n = 0 := by
    rcases Nat.eq_zero_or_pos n with h | h
    · exact Or.inr h
    · exact Or.inl ((abs_nonneg _).trans (hd ⟨0, h⟩ ⟨0, h⟩))
  rcases hδp with hδp | rfl
  swap
  · exact ⟨by rw [posDef_iff]; exact ⟨by ext i; exact i.elim0, fun t h => absurd (Subsingleton.elim _ _) h⟩, fun i => i.elim0⟩
  obtain ⟨hlo, hres⟩ := fact T δ hδp ht hd hδ
  obtain ⟨_, hres0⟩ := fact S 0 le_rfl hs (fun u v => by simp) hδ0p.le
  constructor
  · rw [posDef_iff]
    refine ⟨by ext u v; exact ht v u, fun t h => ?_⟩
    rw [← covar_dot]
    have : 0 < ‖t‖ := norm_pos_iff.2 h
    exact lt_of_lt_of_le (by positivity) (hlo t)
  · intro i j l e c hnd he hc
    obtain ⟨hi, hnd'⟩ := List.nodup_cons.1 hnd
    obtain ⟨hj, hl⟩ := List.nodup_cons.1 hnd'
    have hi : i ∉ l := fun q => hi (by simp [q])
    obtain ⟨e0, he0, _⟩ := LocalScore.exists_residual hS hl hi
    obtain ⟨c0, hc0, _⟩ := LocalScore.exists_residual hS hl hj
    have hz : covar S e0 c0 = 0 ↔ PartialUncorr S i j (fun x => x ∈ l) := by
      rw [LocalScore.covar_comm hs, covar_residual hc0 he0.2.2]
      refine ⟨fun h => ⟨e0, he0, h⟩, ?_⟩
      rintro ⟨e', he', h⟩
      rwa [LocalScore.residual_unique hS (Z := fun x => x ∈ l) hi he0 he']
    have hstep := covar_step ht he hc he0 hc0
    obtain ⟨e1, e2, e3⟩ := hres i _ e he
    obtain ⟨_, c2, c3⟩ := hres j _ c hc
    obtain ⟨k1, _, _⟩ := hres0 j _ c0 hc0
    have hsm : |covar (T - S) e c0| ≤ δ * (q * B) := by
      refine (covar_small hd e c0).trans ?_
      have : ‖e‖ * ‖c0‖ ≤ B := by nlinarith [sq_nonneg (‖e‖ - ‖c0‖)]
      calc δ * (n : ℝ) ^ 2 * ‖e‖ * ‖c0‖ = δ * ((n : ℝ) ^ 2 * (‖e‖ * ‖c0‖)) := by ring
        _ ≤ δ * (q * B) := mul_le_mul_of_nonneg_left (mul_le_mul hqn this (by positivity) (by positivity)) hδp
    have hep : 0 < covar T e e := lt_of_lt_of_le (by positivity) e2
    have hcp : 0 < covar T c c := lt_of_lt_of_le (by positivity) c2
    constructor
    · intro hu
      rw [hz.2 hu, zero_add] at hstep
      unfold corrSq
      rw [hstep, div_le_iff₀ (mul_pos hep hcp)]
      have h1 : covar (T - S) e c0 ^ 2 ≤ (δ * (q * B)) ^ 2 := sq_le_sq' (by linarith [(abs_le.1 hsm).1]) (abs_le.1 hsm).2
      have h2 : m ^ 2 / 4 ≤ covar T e e * covar T c c := by
        calc m ^ 2 / 4 = m / 2 * (m / 2) := by ring
          _ ≤ _ := mul_le_mul e2 c2 (by positivity) hep.le
      calc covar (T - S) e c0 ^ 2 ≤ (δ * (q * B)) ^ 2 := h1
        _ = (4 * (q * B) ^ 2 / m ^ 2) * δ ^ 2 * (m ^ 2 / 4) := by field_simp
        _ ≤ L * δ ^ 2 * (m ^ 2 / 4) := by
          refine mul_le_mul_of_nonneg_right (mul_le_mul_of_nonneg_right ?_ (sq_nonneg _)) (by positivity)
          rw [hL]; linarith
        _ ≤ _ := mul_le_mul_of_nonneg_left h2 (by rw [hL]; positivity)
    · intro hu
      have h0 : covar S e0 c0 ≠ 0 := fun h => hu (hz.1 h)
      have hr0 : ∀ {x : Fin n} {a : Fin n → ℝ}, Residual S x (fun x => x ∈ l) a → Residual S x (fun x => x ∈ l.toFinset) a := by
        intro x a h
        simpa only [List.mem_toFinset] using h
      have h1 : κ ≤ |covar S e0 c0| := (hκF (i, j, l.toFinset)).trans
        (hF (i, j, l.toFinset) e0 c0 (hr0 he0) (hr0 hc0) (by simpa using hi) (by simpa using hj) h0)
      have h2 : δ * (q * B) ≤ κ / 2 := by
        have := hδ.trans (min_le_right _ _)
        rw [le_div_iff₀ (by positivity)] at this
        linarith
      have h3 : κ / 2 ≤ |covar T e c| := by
        rw [hstep]
        have := abs_sub_abs_le_abs_sub (covar S e0 c0) (-covar (T - S) e c0)
        rw [sub_neg_eq_add, abs_neg] at this
        linarith
      unfold corrSq
      rw [le_div_iff₀ (mul_pos hep hcp), ← sq_abs (covar T e c)]
      have h4 : (κ / 2) ^ 2 ≤ |covar T e c| ^ 2 := pow_le_pow_left₀ (by positivity) h3 2
      have h5 : covar T e e * covar T c c ≤ A ^ 2 := by
        rw [sq]; exact mul_le_mul e3 c3 hcp.le hA1.le
      have h6 : 1 / L ≤ κ ^ 2 / (4 * A ^ 2) := by
        rw [div_le_div_iff₀ (by rw [hL]; positivity) (by positivity), one_mul]
        calc 4 * A ^ 2 = κ ^ 2 * (4 * A ^ 2 / κ ^ 2) := by field_simp
          _ ≤ κ ^ 2 * L := mul_le_mul_of_nonneg_left (by rw [hL]; linarith) (sq_nonneg _)
      calc 1 / L * (covar T e e * covar T c c) ≤ κ ^ 2 / (4 * A ^ 2) * A ^ 2 := mul_le_mul h6 h5 (mul_pos hep hcp).le (by positivity)
        _ = (κ / 2) ^ 2 := by field_simp; ring
        _ ≤ _ := h4

end Cdmir.Perturb
