import Verif.Props.Consistency
import Verif.Lemmas.SecondOrder
import Verif.Lemmas.Limit

/-! C173: the level of Fisher's z test, and PC at a fixed level. -/

namespace Cdmir.Level
open BigOperators Spec Matrix MeasureTheory ProbabilityTheory Filter Fisher Sample Perturb Consistency Limit
open scoped ProbabilityTheory Topology

theorem zOf_close {a : ℝ} (h0 : 0 ≤ a) (h1 : a ≤ 1 / 2) : |zOf a - a| ≤ 2 * a ^ 2 := by
  have h2 : 0 < 1 - a := by linarith
  rw [zOf_eq (by linarith)]
  have hp : 0 < (1 + a) / (1 - a) := by positivity
  have u := Real.log_le_sub_one_of_pos hp
  have l := Real.one_sub_inv_le_log_of_pos hp
  have e1 : (1 + a) / (1 - a) - 1 ≤ 2 * a + 4 * a ^ 2 := by
    rw [div_sub_one h2.ne', div_le_iff₀ h2]
    nlinarith [mul_nonneg h0 h0, mul_nonneg (mul_nonneg h0 h0) (by linarith : 0 ≤ 1 - 2 * a)]
  have e2 : 2 * a - 4 * a ^ 2 ≤ 1 - ((1 + a) / (1 - a))⁻¹ := by
    rw [inv_div, le_sub_iff_add_le, ← le_sub_iff_add_le', div_le_iff₀ (by linarith)]
    nlinarith [mul_nonneg h0 h0, mul_nonneg (mul_nonneg h0 h0) h0]
  rw [abs_le]
  constructor <;> linarith

/-- For small correlations the statistic is the root of `N` times the correlation. -/
theorem stat_close (k : ℕ) {B : ℝ} (hB : 0 ≤ B) : ∃ N0 : ℕ, ∃ C : ℝ, 0 ≤ C ∧ ∀ N ≥ N0, ∀ r : ℝ, √(N : ℝ) * |r| ≤ B →
    abs (√((N : ℝ) - k - 3) * zOf (absStat (.fin r)) - √(N : ℝ) * |r|) ≤ C / √(N : ℝ) := by
  obtain ⟨N1, hN1⟩ := div_sqrt_small B (show (0 : ℝ) < 1 / 2 by norm_num)
  refine ⟨max N1 (k + 3), 2 * B ^ 2 + (k + 3) * B, by positivity, fun N hN r hr => ?_⟩
  have hN3 : k + 3 ≤ N := (le_max_right _ _).trans hN
  have hNk : ((k : ℝ) + 3) ≤ N := by exact_mod_cast hN3
  have hk0 : (0 : ℝ) ≤ k := Nat.cast_nonneg k
  have hNp : (0 : ℝ) < N := by linarith
  have hs : 0 < √(N : ℝ) := Real.sqrt_pos.2 hNp
  have hs1 : 1 ≤ √(N : ℝ) := Real.one_le_sqrt.2 (by linarith)
  have hss : √(N : ℝ) * √(N : ℝ) = N := Real.mul_self_sqrt hNp.le
  have ha : |r| ≤ B / √(N : ℝ) := by rw [le_div_iff₀ hs]; linarith
  have ha2 : |r| ≤ 1 / 2 := ha.trans (hN1 N ((le_max_left _ _).trans hN))
  have habs : absStat (.fin r) = |r| := min_eq_right (by linarith)
  rw [habs]
  set a := |r| with had
  have ha0 : 0 ≤ a := abs_nonneg r
  set t := √((N : ℝ) - k - 3) with ht
  have ht0 : 0 ≤ t := Real.sqrt_nonneg _
  have htt : t * t = N - k - 3 := Real.mul_self_sqrt (by linarith)
  have hts : t ≤ √(N : ℝ) := Real.sqrt_le_sqrt (by linarith)
  have hgap : (√(N : ℝ) - t) ≤ (k + 3) / √(N : ℝ) := by
    rw [le_div_iff₀ hs]
    nlinarith
  have hz := zOf_close ha0 ha2
  have e1 : t * zOf a - √(N : ℝ) * a = t * (zOf a - a) - (√(N : ℝ) - t) * a := by ring
  rw [e1]
  refine (abs_sub _ _).trans ?_
  rw [abs_mul, abs_mul, abs_of_nonneg ht0, abs_of_nonneg (show 0 ≤ √(N : ℝ) - t by linarith), abs_of_nonneg ha0]
  have k1 : t * |zOf a - a| ≤ 2 * B ^ 2 / √(N : ℝ) := by
    calc t * |zOf a - a| ≤ √(N : ℝ) * (2 * a ^ 2) := mul_le_mul hts hz (abs_nonneg _) hs.le
      _ = 2 * (√(N : ℝ) * a) ^ 2 / √(N : ℝ) := by field_simp
      _ ≤ 2 * B ^ 2 / √(N : ℝ) := by
        refine div_le_div_of_nonneg_right ?_ hs.le
        have : (√(N : ℝ) * a) ^ 2 ≤ B ^ 2 := pow_le_pow_left₀ (by positivity) hr 2
        linarith
  have k2 : (√(N : ℝ) - t) * a ≤ (k + 3) * B / √(N : ℝ) := by
    calc (√(N : ℝ) - t) * a ≤ (k + 3) / √(N : ℝ) * B := by
          refine mul_le_mul hgap ?_ ha0 (by positivity)
          calc a = 1 * a := (one_mul a).symm
            _ ≤ √(N : ℝ) * a := mul_le_mul_of_nonneg_right hs1 ha0
            _ ≤ B := hr
      _ = _ := by ring
  rw [add_div]
  linarith

/-- A quotient whose parts are near. -/
theorem ratio_close {σ1 σ2 L E : ℝ} (s1 : 0 < σ1) (s2 : 0 < σ2) (hL : 0 < L) (hE : 0 ≤ E) : ∃ B C : ℝ, 0 ≤ B ∧ 0 ≤ C ∧ ∀ δ w W x y : ℝ, 0 < δ → δ ≤ 1 →
    δ ≤ σ1 / (2 * L) → δ ≤ σ2 / (2 * L) → |w - W| ≤ (L + E) * δ ^ 2 → |W| ≤ 2 * E * δ → |x - σ1| ≤ L * δ → |y - σ2| ≤ L * δ →
      0 < x * y ∧ |w| / √(x * y) ≤ B * δ ∧ abs (|w| / √(x * y) - |W| / √(σ1 * σ2)) ≤ C * δ ^ 2 := by
  obtain ⟨q0, hq0⟩ : ∃ q0, q0 = √(σ1 * σ2) := ⟨_, rfl⟩
  rw [← hq0]
  have hq0p : 0 < q0 := hq0 ▸ Real.sqrt_pos.2 (mul_pos s1 s2)
  have hq0q : q0 * q0 = σ1 * σ2 := hq0 ▸ Real.mul_self_sqrt (mul_pos s1 s2).le
  obtain ⟨M, hM⟩ : ∃ M, M = L * (2 * σ2 + σ1) := ⟨_, rfl⟩
  have hM0 : 0 < M := by rw [hM]; positivity
  refine ⟨(2 * E + (L + E)) * 2 / q0, 2 * (L + E) / q0 + 2 * E * (M / q0) * 2 / (q0 * q0), by positivity, by positivity, ?_⟩
  intro δ w W x y hδp d4 d2 d3 hwW hWs k2 k3
  have hx1 : σ1 / 2 ≤ x := by
    have := (abs_le.1 k2).1
    rw [le_div_iff₀ (by positivity)] at d2
    linarith
  have hy1 : σ2 / 2 ≤ y := by
    have := (abs_le.1 k3).1
    rw [le_div_iff₀ (by positivity)] at d3
    linarith
  have hy2 : y ≤ 2 * σ2 := by
    have := (abs_le.1 k3).2
    rw [le_div_iff₀ (by positivity)] at d3
    linarith
  have hxp : 0 < x := by linarith
  have hyp : 0 < y := by linarith
  obtain ⟨q, hq⟩ : ∃ q, q = √(x * y) := ⟨_, rfl⟩
  rw [← hq]
  have hqp : 0 < q := hq ▸ Real.sqrt_pos.2 (mul_pos hxp hyp)
  have hqq : q * q = x * y := hq ▸ Real.mul_self_sqrt (mul_pos hxp hyp).le
  have hq2 : q0 / 2 ≤ q := by
    rw [hq]
    refine Real.le_sqrt_of_sq_le ?_
    rw [div_pow, sq, hq0q]
    calc σ1 * σ2 / 2 ^ 2 = σ1 / 2 * (σ2 / 2) := by ring
      _ ≤ x * y := mul_le_mul hx1 hy1 (by positivity) hxp.le
  have hqd : |q0 - q| ≤ M / q0 * δ := by
    have h1 : |q0 * q0 - q * q| ≤ M * δ := by
      rw [hq0q, hqq, show σ1 * σ2 - x * y = -((x - σ1) * y + σ1 * (y - σ2)) by ring, abs_neg]
      refine (abs_add_le _ _).trans ?_
      rw [abs_mul, abs_mul, abs_of_pos hyp, abs_of_pos s1]
      calc |x - σ1| * y + σ1 * |y - σ2| ≤ L * δ * (2 * σ2) + σ1 * (L * δ) :=
            add_le_add (mul_le_mul k2 hy2 hyp.le (by positivity)) (mul_le_mul_of_nonneg_left k3 s1.le)
        _ = _ := by rw [hM]; ring
    rw [show q0 * q0 - q * q = (q0 - q) * (q0 + q) by ring, abs_mul, abs_of_pos (show 0 < q0 + q by linarith)] at h1
    rw [div_mul_eq_mul_div, le_div_iff₀ hq0p]
    exact (mul_le_mul_of_nonneg_left (by linarith) (abs_nonneg _)).trans h1
  have hwa : |w| ≤ (2 * E + (L + E)) * δ := by
    have h1 : |w| ≤ |W| + |w - W| := by
      have := abs_add_le W (w - W)
      rwa [add_sub_cancel] at this
    have h2 : (L + E) * δ ^ 2 ≤ (L + E) * δ := mul_le_mul_of_nonneg_left (by nlinarith) (by positivity)
    linarith
  refine ⟨mul_pos hxp hyp, ?_, ?_⟩
  · rw [div_le_iff₀ hqp]
    calc |w| ≤ (2 * E + (L + E)) * δ := hwa
      _ = (2 * E + (L + E)) * 2 / q0 * δ * (q0 / 2) := by field_simp
      _ ≤ _ := mul_le_mul_of_nonneg_left hq2 (by positivity)
  · have e1 : |w| / q - |W| / q0 = (|w| - |W|) / q + |W| * (q0 - q) / (q * q0) := by field_simp; ring
    rw [e1]
    have t1 : abs ((|w| - |W|) / q) ≤ 2 * (L + E) / q0 * δ ^ 2 := by
      rw [abs_div, abs_of_pos hqp, div_le_iff₀ hqp]
      have h1 := (abs_abs_sub_abs_le_abs_sub w W).trans hwW
      calc abs (|w| - |W|) ≤ (L + E) * δ ^ 2 := h1
        _ = 2 * (L + E) / q0 * δ ^ 2 * (q0 / 2) := by field_simp
        _ ≤ _ := mul_le_mul_of_nonneg_left hq2 (by positivity)
    have t2 : abs (|W| * (q0 - q) / (q * q0)) ≤ 2 * E * (M / q0) * 2 / (q0 * q0) * δ ^ 2 := by
      rw [abs_div, abs_mul, abs_abs, abs_of_pos (mul_pos hqp hq0p), div_le_iff₀ (mul_pos hqp hq0p)]
      calc |W| * |q0 - q| ≤ 2 * E * δ * (M / q0 * δ) := mul_le_mul hWs hqd (abs_nonneg _) (by positivity)
        _ = 2 * E * (M / q0) * 2 / (q0 * q0) * δ ^ 2 * (q0 / 2 * q0) := by field_simp
        _ ≤ _ := mul_le_mul_of_nonneg_left (mul_le_mul_of_nonneg_right hq2 hq0p.le) (by positivity)
    refine (abs_add_le _ _).trans ?_
    rw [add_mul]
    linarith

section near
variable {Ω : Type} {mΩ : MeasurableSpace Ω} {P : Measure Ω} {n : Nat} {X : ℕ → Ω → Fin n → ℝ}

/-- The combination `a` of the centred variables of record `s`. -/
noncomputable def comb (P : Measure Ω) (X : ℕ → Ω → Fin n → ℝ) (a : Fin n → ℝ) (s : ℕ) (ω : Ω) : ℝ := ∑ v, a v * (X s ω v - P[fun ω => X 0 ω v])

/-- The sample covariance of two combinations. -/
theorem covar_covN {N : ℕ} (hN : 0 < N) (ω : Ω) (a b : Fin n → ℝ) : covar (covN X N ω) a b =
    (∑ s : Fin N, comb P X a s ω * comb P X b s ω) / N - (∑ s : Fin N, comb P X a s ω) / N * ((∑ s : Fin N, comb P X b s ω) / N) := by
  set p : Fin n → ℝ := fun v => P[fun ω => X 0 ω v] with hp
  have h1 : ∀ c : Fin n → ℝ, (∑ s : Fin N, comb P X c s ω) / N = ∑ v, c v * ((∑ s : Fin N, (X s ω v - p v)) / N) := fun c => by
    unfold comb
    rw [Finset.sum_comm, Finset.sum_div]
    refine Finset.sum_congr rfl fun v _ => ?_
    rw [← Finset.mul_sum, mul_div_assoc]
  have h2 : (∑ s : Fin N, comb P X a s ω * comb P X b s ω) / N = ∑ u, ∑ v, a u * ((∑ s : Fin N, (X s ω u - p u) * (X s ω v - p v)) / N) * b v := by
    have : ∀ s : Fin N, comb P X a s ω * comb P X b s ω = ∑ u, ∑ v, a u * ((X s ω u - p u) * (X s ω v - p v)) * b v := fun s => by
      unfold comb
      rw [Finset.sum_mul_sum]
      exact Finset.sum_congr rfl fun u _ => Finset.sum_congr rfl fun v _ => by ring
    rw [Finset.sum_congr rfl fun s _ => this s, Finset.sum_comm, Finset.sum_div]
    refine Finset.sum_congr rfl fun u _ => ?_
    rw [Finset.sum_comm, Finset.sum_div]
    refine Finset.sum_congr rfl fun v _ => ?_
    rw [← Finset.sum_mul, ← Finset.mul_sum]
    ring
  rw [h1, h1, h2, Finset.sum_mul_sum, ← Finset.sum_sub_distrib]
  unfold covar
  refine Finset.sum_congr rfl fun u _ => ?_
  rw [← Finset.sum_sub_distrib]
  refine Finset.sum_congr rfl fun v _ => ?_
  rw [covN_eq X hN ω u v (p u) (p v)]
  ring

theorem mean_small {N : ℕ} {ω : Ω} {δ : ℝ} (hm : ∀ v, |(∑ s : Fin N, (X s ω v - P[fun ω => X 0 ω v])) / N| ≤ δ) (a : Fin n → ℝ) :
    |(∑ s : Fin N, comb P X a s ω) / N| ≤ n * ‖a‖ * δ := by
  have h1 : (∑ s : Fin N, comb P X a s ω) / N = ∑ v, a v * ((∑ s : Fin N, (X s ω v - P[fun ω => X 0 ω v])) / N) := by
    unfold comb
    rw [Finset.sum_comm, Finset.sum_div]
    refine Finset.sum_congr rfl fun v _ => ?_
    rw [← Finset.mul_sum, mul_div_assoc]
  rw [h1]
  refine (Finset.abs_sum_le_sum_abs _ _).trans ?_
  refine (Finset.sum_le_card_nsmul _ _ (‖a‖ * δ) fun v _ => ?_).trans (le_of_eq ?_)
  · rw [abs_mul]
    exact mul_le_mul (norm_le_pi_norm a v) (hm v) (abs_nonneg _) (norm_nonneg _)
  · rw [Finset.card_univ, Fintype.card_fin, nsmul_eq_mul, mul_assoc]

/-- The sum that the test statistic is near to. -/
noncomputable def root (P : Measure Ω) (X : ℕ → Ω → Fin n → ℝ) (e c : Fin n → ℝ) (N : ℕ) (ω : Ω) : ℝ :=
  (√(N : ℝ))⁻¹ * ∑ k ∈ Finset.range N, comb P X e k ω * comb P X c k ω / √(covar (covOf P X) e e * covar (covOf P X) c c)

theorem near_stat (hS : (covOf P X).PosDef) {i j : Fin n} {zs : List (Fin n)} (hnd : (i :: j :: zs).Nodup) {e0 c0 : Fin n → ℝ}
    (he0 : Residual (covOf P X) i (fun w => w ∈ zs) e0) (hc0 : Residual (covOf P X) j (fun w => w ∈ zs) c0) (h0 : covar (covOf P X) e0 c0 = 0) {η : ℝ} (hη : 0 < η)
    {D : ℝ} (hD : 0 < D) : ∃ N0, ∀ N ≥ N0, ∀ ω, Near P X D N ω → (corrOf (covN X N ω)).PosDef ∧ ∃ r : ℝ,
      fromSub (corrOf (covN X N ω)) N i j zs = .ok (.val (2 * (1 - normCdf (√((N : ℝ) - zs.length - 3) * zOf (absStat (.fin r))))), .fin r) ∧
      abs (√((N : ℝ) - zs.length - 3) * zOf (absStat (.fin r)) - |root P X e0 c0 N ω|) < η := by
  set S := covOf P X with hSd
  have hpos : ∀ {x : Fin n} {a : Fin n → ℝ}, Residual S x (fun w => w ∈ zs) a → 0 < covar S a a := fun {x a} h => by
    rw [covar_dot]
    exact (posDef_iff.1 hS).2 a fun q => by have := h.1; rw [q] at this; exact zero_ne_one this
  have s1 := hpos he0
  have s2 := hpos hc0
  obtain ⟨δ0, hδ0, _, _, hnear⟩ := near hS
  obtain ⟨δ1, hδ1, L, hL, hsec⟩ := second_order hS he0 hc0
  obtain ⟨E, hE⟩ : ∃ E : ℝ, E = n ^ 2 * ‖e0‖ * ‖c0‖ := ⟨_, rfl⟩
  have hE0 : 0 ≤ E := by rw [hE]; positivity
  obtain ⟨B, C1, hB0, hC10, hratio⟩ := ratio_close s1 s2 hL hE0
  obtain ⟨N1, C, hC, hstat⟩ := stat_close zs.length (mul_nonneg hB0 hD.le)
  obtain ⟨N2, hN2⟩ := div_sqrt_small D (show 0 < min (min δ0 δ1) (min (min (covar S e0 e0 / (2 * L)) (covar S c0 c0 / (2 * L))) 1) from
    lt_min (lt_min hδ0 hδ1) (lt_min (lt_min (by positivity) (by positivity)) one_pos))
  obtain ⟨N3, hN3⟩ := div_sqrt_small (C + C1 * D ^ 2) (show 0 < η / 2 by linarith)
  refine ⟨max (max N1 N2) (max N3 (zs.length + 3)), fun N hN ω ⟨hcov, hmean⟩ => ?_⟩
  have g1 := hstat N (by omega)
  have g2 := hN2 N (by omega)
  have g3 := hN3 N (by omega)
  have hNk : zs.length + 3 ≤ N := by omega
  have hNp : 0 < N := by omega
  have hNr : (0 : ℝ) < N := by exact_mod_cast hNp
  have hs : 0 < √(N : ℝ) := Real.sqrt_pos.2 hNr
  have hss : √(N : ℝ) * √(N : ℝ) = N := Real.mul_self_sqrt hNr.le
  obtain ⟨δ, hδ⟩ : ∃ δ, δ = D / √(N : ℝ) := ⟨_, rfl⟩
  rw [← hδ] at hcov hmean g2
  have hδp : 0 < δ := by rw [hδ]; positivity
  have hsδ : √(N : ℝ) * δ = D := by rw [hδ]; field_simp
  have d0 : δ ≤ δ0 := g2.trans ((min_le_left _ _).trans (min_le_left _ _))
  have d1 : δ ≤ δ1 := g2.trans ((min_le_left _ _).trans (min_le_right _ _))
  have d2 := g2.trans ((min_le_right _ _).trans ((min_le_left _ _).trans (min_le_left _ _)))
  have d3 := g2.trans ((min_le_right _ _).trans ((min_le_left _ _).trans (min_le_right _ _)))
  have d4 : δ ≤ 1 := g2.trans ((min_le_right _ _).trans (min_le_right _ _))
  have hTs := covN_symm X N ω
  obtain ⟨hTP, _⟩ := hnear (covN X N ω) δ hTs hcov d0
  refine ⟨corrOf_posDef hTP, ?_⟩
  obtain ⟨r, e, c, hsub, he, hc, hr⟩ := fromSub_corr hTP N hnd
  rw [pOf_val hNk r] at hsub
  refine ⟨r, hsub, ?_⟩
  obtain ⟨k1, k2, k3⟩ := hsec (covN X N ω) δ hTs hcov hδp.le d1 e c he hc
  -- the sum of products
  obtain ⟨W, hW⟩ : ∃ W, W = (∑ s : Fin N, comb P X e0 s ω * comb P X c0 s ω) / N := ⟨_, rfl⟩
  obtain ⟨m, hm⟩ : ∃ m, m = (∑ s : Fin N, comb P X e0 s ω) / N * ((∑ s : Fin N, comb P X c0 s ω) / N) := ⟨_, rfl⟩
  have hWc := covar_covN (P := P) (X := X) hNp ω e0 c0
  rw [← hW, ← hm] at hWc
  have m1 := mean_small (P := P) (X := X) hmean e0
  have m2 := mean_small (P := P) (X := X) hmean c0
  have hmm : |m| ≤ E * δ ^ 2 := by
    rw [hm, abs_mul]
    calc _ ≤ n * ‖e0‖ * δ * (n * ‖c0‖ * δ) := mul_le_mul m1 m2 (abs_nonneg _) (by positivity)
      _ = _ := by rw [hE]; ring
  have hwW : |covar (covN X N ω) e c - W| ≤ (L + E) * δ ^ 2 := by
    have : covar (covN X N ω) e c - W = (covar (covN X N ω) e c - covar (covN X N ω) e0 c0) - m := by rw [hWc]; ring
    rw [this]
    refine (abs_sub _ _).trans ?_
    linarith
  have hWs : |W| ≤ 2 * E * δ := by
    have h1 : |covar (covN X N ω) e0 c0| ≤ E * δ := by
      rw [covar_diff S (covN X N ω), h0, zero_add]
      refine (covar_small hcov e0 c0).trans (le_of_eq ?_)
      rw [hE]; ring
    have h2 : W = covar (covN X N ω) e0 c0 + m := by rw [hWc]; ring
    have h3 : E * δ ^ 2 ≤ E * δ := mul_le_mul_of_nonneg_left (by nlinarith) hE0
    rw [h2]
    refine (abs_add_le _ _).trans ?_
    linarith
  obtain ⟨r1, r2, r3⟩ := hratio δ _ W _ _ hδp d4 d2 d3 hwW hWs k2 k3
  have hra : |r| = |covar (covN X N ω) e c| / √(covar (covN X N ω) e e * covar (covN X N ω) c c) := by
    have h1 : |r| ^ 2 = (|covar (covN X N ω) e c| / √(covar (covN X N ω) e e * covar (covN X N ω) c c)) ^ 2 := by
      rw [sq_abs, hr, corrSq, div_pow, sq_abs, Real.sq_sqrt r1.le]
    exact (pow_left_inj₀ (abs_nonneg r) (by positivity) two_ne_zero).1 h1
  rw [← hra] at r2 r3
  have hfin := g1 r (by
    calc √(N : ℝ) * |r| ≤ √(N : ℝ) * (B * δ) := mul_le_mul_of_nonneg_left r2 hs.le
      _ = B * (√(N : ℝ) * δ) := by ring
      _ = _ := by rw [hsδ])
  have hroot : |root P X e0 c0 N ω| = √(N : ℝ) * (|W| / √(covar S e0 e0 * covar S c0 c0)) := by
    have hq0p : 0 < √(covar S e0 e0 * covar S c0 c0) := Real.sqrt_pos.2 (mul_pos s1 s2)
    have h1 : root P X e0 c0 N ω = √(N : ℝ) * (W / √(covar S e0 e0 * covar S c0 c0)) := by
      unfold root
      rw [← hSd, Finset.sum_range fun k => comb P X e0 k ω * comb P X c0 k ω / √(covar S e0 e0 * covar S c0 c0), ← Finset.sum_div, hW]
      have : (√(N : ℝ))⁻¹ = √(N : ℝ) / N := by rw [eq_div_iff hNr.ne', inv_mul_eq_iff_eq_mul₀ hs.ne']; exact hss.symm
      rw [this]
      ring
    rw [h1, abs_mul, abs_div, abs_of_pos hs, abs_of_pos hq0p]
  have hdiff : abs (√(N : ℝ) * |r| - |root P X e0 c0 N ω|) ≤ C1 * D ^ 2 / √(N : ℝ) := by
    rw [hroot, ← mul_sub, abs_mul, abs_of_pos hs]
    calc _ ≤ √(N : ℝ) * (C1 * δ ^ 2) := mul_le_mul_of_nonneg_left r3 hs.le
      _ = C1 * (√(N : ℝ) * δ * δ) := by ring
      _ = _ := by rw [hsδ, hδ]; ring
  have htri := abs_sub_le (√((N : ℝ) - zs.length - 3) * zOf (absStat (.fin r))) (√(N : ℝ) * |r|) (|root P X e0 c0 N ω|)
  rw [add_div] at g3
  linarith

variable [IsProbabilityMeasure P]

theorem comb_eq (hX : Drawn P X) (a : Fin n → ℝ) (s : ℕ) (ω : Ω) : comb P X a s ω = (∑ v, a v * X s ω v) - P[fun ω => ∑ v, a v * X 0 ω v] := by
  have hi : ∀ v, Integrable (fun ω => a v * X 0 ω v) P := fun v => (((hX.moment v).mono_exponent (by norm_num)).integrable one_le_two).const_mul _
  unfold comb
  rw [integral_finsetSum _ fun v _ => hi v, ← Finset.sum_sub_distrib]
  refine Finset.sum_congr rfl fun v _ => ?_
  rw [integral_const_mul, mul_sub]

theorem comb_memLp (hX : Drawn P X) (a : Fin n → ℝ) : MemLp (comb P X a 0) 4 P := by
  unfold comb
  exact memLp_finsetSum _ fun v _ => ((hX.moment v).sub (memLp_const _)).const_mul _

theorem comb_cov (hX : Drawn P X) (a b : Fin n → ℝ) : ∫ ω, comb P X a 0 ω * comb P X b 0 ω ∂P = covar (covOf P X) a b := by
  have h2 : ∀ (a : Fin n → ℝ) v, MemLp (fun ω => a v * X 0 ω v) 2 P := fun a v => ((hX.moment v).mono_exponent (by norm_num)).const_mul _
  have h := covariance_fun_sum_fun_sum (h2 a) (h2 b)
  simp only [covariance_const_mul_left, covariance_const_mul_right] at h
  have e : covar (covOf P X) a b = ∑ u, ∑ v, b v * (a u * cov[fun ω => X 0 ω u, fun ω => X 0 ω v; P]) := by
    unfold covar covOf
    exact Finset.sum_congr rfl fun u _ => Finset.sum_congr rfl fun v _ => by rw [of_apply]; ring
  rw [e, ← h]
  unfold covariance
  refine integral_congr_ae (ae_of_all _ fun ω => ?_)
  simp only [comb_eq hX]

/-- The products of independent residuals satisfy the central limit theorem. -/
theorem root_limit (hX : Drawn P X) {e c : Fin n → ℝ} (he : 0 < covar (covOf P X) e e) (hc : 0 < covar (covOf P X) c c)
    (hind : IndepFun (fun ω => ∑ v, e v * X 0 ω v) (fun ω => ∑ v, c v * X 0 ω v) P) : covar (covOf P X) e c = 0 ∧
    (∀ N, AEMeasurable (root P X e c N) P) ∧
    ∀ x, 0 ≤ x → Tendsto (fun N => P {ω | x < |root P X e c N ω|}) atTop (𝓝 (ENNReal.ofReal (2 * (1 - normCdf x)))) := by
  have hind' : IndepFun (comb P X e 0) (comb P X c 0) P := by
    have := hind.comp (φ := fun t => t - P[fun ω => ∑ v, e v * X 0 ω v]) (ψ := fun t => t - P[fun ω => ∑ v, c v * X 0 ω v]) (by fun_prop) (by fun_prop)
    have e1 : ∀ a, comb P X a 0 = (fun t => t - P[fun ω => ∑ v, a v * X 0 ω v]) ∘ fun ω => ∑ v, a v * X 0 ω v := fun a => funext fun ω => comb_eq hX a 0 ω
    rw [e1, e1]
    exact this
  have hme := comb_memLp hX e
  have hmc := comb_memLp hX c
  have hz : ∀ a, ∫ ω, comb P X a 0 ω ∂P = 0 := fun a => by
    have hi : Integrable (fun ω => ∑ v, a v * X 0 ω v) P :=
      integrable_finsetSum _ fun v _ => (((hX.moment v).mono_exponent (by norm_num)).integrable one_le_two).const_mul _
    simp only [comb_eq hX]
    rw [integral_sub hi (integrable_const _), integral_const]
    simp
  have hprod : ∫ ω, comb P X e 0 ω * comb P X c 0 ω ∂P = 0 := by
    have := hind'.integral_fun_mul_eq_mul_integral hme.aestronglyMeasurable hmc.aestronglyMeasurable
    rw [this, hz, zero_mul]
  have hcov : covar (covOf P X) e c = 0 := by rw [← comb_cov hX, hprod]
  refine ⟨hcov, ?_⟩
  obtain ⟨q, hq⟩ : ∃ q, q = √(covar (covOf P X) e e * covar (covOf P X) c c) := ⟨_, rfl⟩
  have hqp : 0 < q := hq ▸ Real.sqrt_pos.2 (mul_pos he hc)
  have hqq : q ^ 2 = covar (covOf P X) e e * covar (covOf P X) c c := hq ▸ Real.sq_sqrt (mul_pos he hc).le
  set f : (Fin n → ℝ) → ℝ := fun x => (∑ v, e v * (x v - P[fun ω => X 0 ω v])) * (∑ v, c v * (x v - P[fun ω => X 0 ω v])) / q with hf
  have hfm : Measurable f := by rw [hf]; fun_prop
  set Y : ℕ → Ω → ℝ := fun s ω => f (X s ω) with hY
  have hYe : ∀ s ω, Y s ω = comb P X e s ω * comb P X c s ω / q := fun s ω => rfl
  have hsq : ∫ ω, (comb P X e 0 ω) ^ 2 * (comb P X c 0 ω) ^ 2 ∂P = covar (covOf P X) e e * covar (covOf P X) c c := by
    have h := hind'.comp (φ := fun t : ℝ => t ^ 2) (ψ := fun t : ℝ => t ^ 2) (by fun_prop) (by fun_prop)
    have h3 := h.integral_fun_mul_eq_mul_integral ((hme.aestronglyMeasurable.pow 2)) ((hmc.aestronglyMeasurable.pow 2))
    simp only [Function.comp_apply] at h3
    rw [h3, ← comb_cov hX e e, ← comb_cov hX c c]
    simp only [sq]
  have h0 : P[Y 0] = 0 := by
    simp only [hYe]
    rw [integral_div, hprod, zero_div]
  have h1 : P[Y 0 ^ 2] = 1 := by
    have : ∀ ω, (Y 0 ^ 2) ω = (comb P X e 0 ω) ^ 2 * (comb P X c 0 ω) ^ 2 / q ^ 2 := fun ω => by
      rw [Pi.pow_apply, hYe]; ring
    simp only [this]
    rw [integral_div, hsq, ← hqq, div_self (by positivity)]
  have hi : iIndepFun Y P := hX.indep.comp (fun _ => f) fun _ => hfm
  have hd : ∀ s, IdentDistrib (Y s) (Y 0) P P := fun s => (hX.ident s).comp hfm
  have hr : ∀ N ω, root P X e c N ω = (√(N : ℝ))⁻¹ * ∑ k ∈ Finset.range N, Y k ω := fun N ω => by
    unfold root
    rw [← hq]
    rfl
  have hr' : ∀ N, root P X e c N = fun ω => (√(N : ℝ))⁻¹ * ∑ k ∈ Finset.range N, Y k ω := fun N => funext (hr N)
  refine ⟨fun N => ?_, fun x hx => ?_⟩
  · rw [hr']
    exact (clt h0 h1 hi hd le_rfl).1 N
  · simp only [hr]
    exact (clt h0 h1 hi hd hx).2

theorem quantile {alpha : ℝ} (ha0 : 0 < alpha) (ha1 : alpha < 1) : ∃ c > 0, 2 * (1 - normCdf c) = alpha := by
  obtain ⟨b, hb⟩ := (normCdf_tendsto.eventually (lt_mem_nhds (show 1 - alpha / 2 < 1 by linarith))).exists
  have h0 := normCdf_zero
  have hb0 : 0 ≤ b := by
    by_contra hlt
    have := normCdf_strictMono (not_le.1 hlt)
    linarith
  obtain ⟨c, ⟨hc0, _⟩, hc⟩ := intermediate_value_Icc hb0 normCdf_continuous.continuousOn (show 1 - alpha / 2 ∈ Set.Icc (normCdf 0) (normCdf b) from
    ⟨by linarith, hb.le⟩)
  refine ⟨c, lt_of_le_of_ne hc0 fun q => ?_, by linarith⟩
  rw [← q] at hc
  linarith

/-- Any event that, for samples near the distribution, is the rejection of the hypothesis has probability tending to the level. -/
theorem level_of (hX : Drawn P X) (hS : (covOf P X).PosDef) {i j : Fin n} {zs : List (Fin n)} (hnd : (i :: j :: zs).Nodup) {e c : Fin n → ℝ}
    (he : Residual (covOf P X) i (fun w => w ∈ zs) e) (hc : Residual (covOf P X) j (fun w => w ∈ zs) c)
    (hind : IndepFun (fun ω => ∑ v, e v * X 0 ω v) (fun ω => ∑ v, c v * X 0 ω v) P) {alpha : ℝ} (ha0 : 0 < alpha) (ha1 : alpha < 1) {A : ℕ → Set Ω}
    (hA : ∀ N ω, (corrcoef (data X N ω)).PosDef → ∀ p r, fromSub (corrcoef (data X N ω)) N i j zs = .ok (.val p, .fin r) → (ω ∈ A N ↔ p < alpha)) :
    Tendsto (fun N => P (A N)) atTop (𝓝 (ENNReal.ofReal alpha)) ∧ Tendsto (fun N => P (A N)ᶜ) atTop (𝓝 (ENNReal.ofReal (1 - alpha))) := by
  have hpos : ∀ {x : Fin n} {a : Fin n → ℝ}, Residual (covOf P X) x (fun w => w ∈ zs) a → 0 < covar (covOf P X) a a := fun {x a} h => by
    rw [covar_dot]
    exact (posDef_iff.1 hS).2 a fun q => by have := h.1; rw [q] at this; exact zero_ne_one this
  obtain ⟨hcov, hm, hlim⟩ := root_limit hX (hpos he) (hpos hc) hind
  obtain ⟨x, hx, hxa⟩ := quantile ha0 ha1
  rw [← hxa]
  refine level hm hlim hx fun η hη => tendsto_bad hX fun D hD => ?_
  obtain ⟨N0, hN0⟩ := near_stat hS hnd he hc hcov hη hD
  refine ⟨max N0 2, fun N hN ω hω => ?_⟩
  obtain ⟨hP, r, hf, hr⟩ := hN0 N ((le_max_left _ _).trans hN) ω hω
  rw [← corrcoef_covN X ((le_max_right _ _).trans hN) ω] at hP hf
  have hiff := hA N ω hP _ _ hf
  obtain ⟨b1, b2⟩ := abs_lt.1 hr
  refine ⟨fun hlt => hiff.2 ?_, fun hmem => ?_⟩
  · have := normCdf_strictMono (show x < √((N : ℝ) - zs.length - 3) * zOf (absStat (.fin r)) by linarith)
    linarith
  · have h1 := hiff.1 hmem
    have h2 : normCdf x < normCdf (√((N : ℝ) - zs.length - 3) * zOf (absStat (.fin r))) := by linarith
    have := normCdf_strictMono.lt_iff_lt.1 h2
    linarith

/-- **C173, level.** On records drawn independently from a distribution with fourth moments, if what remains of two variables after regression on the others
is independent, then Fisher's z test rejects their independence given the others at level `alpha` with probability tending to `alpha`, and accepts it with
probability tending to `1 - alpha`. -/
theorem c173_level (hX : Drawn P X) (hS : (covOf P X).PosDef) {i j : Fin n} {zs : List (Fin n)} (hnd : (i :: j :: zs).Nodup) {e c : Fin n → ℝ}
    (he : Residual (covOf P X) i (fun w => w ∈ zs) e) (hc : Residual (covOf P X) j (fun w => w ∈ zs) c)
    (hind : IndepFun (fun ω => ∑ v, e v * X 0 ω v) (fun ω => ∑ v, c v * X 0 ω v) P) {alpha : ℝ} (ha0 : 0 < alpha) (ha1 : alpha < 1) :
    Tendsto (fun N => P {ω | ∃ p r, fisherzFromCorr (corrcoef (data X N ω)) N ((i : ℕ) : ℤ) ((j : ℕ) : ℤ) (some (zs.map fun k : Fin n => ((k : ℕ) : ℤ))) =
        .ok (.val p, r) ∧ p < alpha}) atTop (𝓝 (ENNReal.ofReal alpha)) ∧
      Tendsto (fun N => P {ω | ∃ p r, fisherzFromCorr (corrcoef (data X N ω)) N ((i : ℕ) : ℤ) ((j : ℕ) : ℤ) (some (zs.map fun k : Fin n => ((k : ℕ) : ℤ))) =
        .ok (.val p, r) ∧ alpha ≤ p}) atTop (𝓝 (ENNReal.ofReal (1 - alpha))) := by
  refine ⟨(level_of hX hS hnd he hc hind ha0 ha1 fun N ω _ p r h => ?_).1, ?_⟩
  · simp only [Set.mem_ofPred_eq, cal_nat]
    refine ⟨?_, fun hp => ⟨p, _, h, hp⟩⟩
    rintro ⟨p', r', h', hp'⟩
    rw [h] at h'
    simp only [Except.ok.injEq, Prod.mk.injEq, PV.val.injEq] at h'
    rw [h'.1]; exact hp'
  · have := (level_of (A := fun N => {ω | ∃ p r, fisherzFromCorr (corrcoef (data X N ω)) N ((i : ℕ) : ℤ) ((j : ℕ) : ℤ)
      (some (zs.map fun k : Fin n => ((k : ℕ) : ℤ))) = .ok (.val p, r) ∧ alpha ≤ p}ᶜ) hX hS hnd he hc hind ha0 ha1 fun N ω _ p r h => ?_).2
    · simpa only [compl_compl] using this
    · simp only [Set.mem_compl_iff, Set.mem_ofPred_eq, cal_nat]
      refine ⟨fun hn => ?_, ?_⟩
      · by_contra hp
        exact hn ⟨p, _, h, not_lt.1 hp⟩
      · rintro hp ⟨p', r', h', hp'⟩
        rw [h] at h'
        simp only [Except.ok.injEq, Prod.mk.injEq, PV.val.injEq] at h'
        rw [← h'.1] at hp'
        linarith

end near

section pc
variable {α : Type} [DecidableEq α] {u v : α} {N : ℕ}

/-- With two variables every sensible question has the one answer. -/
theorem two_ans (huv : u ≠ v) {corr : Matrix (Fin [u, v].length) (Fin [u, v].length) ℝ} (hP : corr.PosDef) {p r : ℝ}
    (h : fromSub corr N (0 : Fin 2) (1 : Fin 2) [] = .ok (.val p, .fin r)) {a b : α} {z : List α} (hl : Legal [u, v] a b z) :
    ∀ s, CacheInv (fisherzFromCorr corr N) s → ∃ s', fisherTest [u, v] corr N a b z s = .ok (.val p, s') ∧ CacheInv (fisherzFromCorr corr N) s' := by
  obtain ⟨l1, l2, l3, l4, l5, l6, l7⟩ := hl
  have hc := Fisher.posDef_symm hP
  obtain ⟨i, j, zs, hi, hj, hz, hans⟩ := fisherTest_spec (corr := corr) (N := N) hc l1 l2 l4
  have hz0 : z = [] := by
    refine List.eq_nil_iff_forall_not_mem.2 fun w hw => ?_
    have h0 := l4 w hw
    have n1 : w ≠ a := fun q => l6 (q ▸ hw)
    have n2 : w ≠ b := fun q => l7 (q ▸ hw)
    simp only [List.mem_cons, List.not_mem_nil, or_false] at h0 l1 l2
    rcases h0 with rfl | rfl <;> rcases l1 with rfl | rfl <;> rcases l2 with rfl | rfl <;> simp_all
  subst hz0
  obtain rfl : zs = [] := List.map_eq_nil_iff.1 hz
  have hij : i ≠ j := fun q => l3 (by rw [← hi, ← hj, q])
  have hf : fromSub corr N i j [] = .ok (.val p, .fin r) := by
    change Fin 2 at i
    change Fin 2 at j
    fin_cases i <;> fin_cases j
    · exact absurd rfl hij
    · exact h
    · exact (fromSub_swap hc _ _ _).trans h
    · exact absurd rfl hij
  exact fun s hs => hans s hs _ hf

/-- With two variables PC joins them just if the test rejects. -/
theorem two_pc (huv : u ≠ v) {corr : Matrix (Fin [u, v].length) (Fin [u, v].length) ℝ} (hP : corr.PosDef) {p r alpha : ℝ}
    (h : fromSub corr N (0 : Fin 2) (1 : Fin 2) [] = .ok (.val p, .fin r))
    {search : CITest α (Cache (PV × Stat)) PV → List α → PV → Cache (PV × Stat) → Except Err (Graph α × Sep α × Cache (PV × Stat))}
    (hs : search = adjacencySearch ∨ search = fastAdjacencySearch) :
    ∃ res st', pcFit search (fisherTest [u, v] corr N) [u, v] (.val alpha) [] = .ok (res, st') ∧ (Conn res.causal u v ↔ p < alpha) ∧
      (Conn res.causal u v → Und res.causal u v ∨ Dir res.causal u v ∨ Dir res.causal v u) := by
  have hn : [u, v].Nodup := by simp [huv]
  obtain ⟨res, st', e, es, _, _, _, hcon, hsh, _⟩ := c33_pc_fit (alpha := PV.val alpha) (st := []) hn search hs
    (fun u v z s hl => fisherTest_total (N := N) hP s hl)
  obtain ⟨tr, ha1, hleg, hk, h0⟩ := search_evidence hn hs es
  have hno : ∀ q ∈ tr, q.p = .val p := by
    refine answers_inv (I := CacheInv (fisherzFromCorr corr N)) (L := fun q => Legal [u, v] q.u q.v q.z) ?_ ha1 CacheInv.nil hleg
    intro q s s' hq hs e
    obtain ⟨s1, e1, h1⟩ := two_ans huv hP h hq s hs
    rw [e] at e1
    simp only [Except.ok.injEq, Prod.mk.injEq] at e1
    exact ⟨e1.1, e1.2 ▸ h1⟩
  have hcc : Conn res.causal u v ↔ Conn res.skeleton u v := by unfold Conn; rw [hcon]
  refine ⟨res, st', e, hcc.trans ⟨fun hc => ?_, fun hp => (hk u v).2 ⟨by simp, by simp, huv, fun z => ⟨?_, ?_⟩⟩⟩, hsh u v⟩
  · obtain ⟨q, hq, hqu, _⟩ := h0 u v hc
    have hK := (hk u v).1 hc
    by_contra hle
    have hacc : Accepted (PV.val alpha) tr q.u q.v q.z := ⟨q.p, by rw [hno q hq]; exact not_lt.1 hle, hq⟩
    rcases hqu with ⟨h1, h2⟩ | ⟨h1, h2⟩ <;> rw [h1, h2] at hacc
    · exact (hK.2.2.2 _).1 hacc
    · exact (hK.2.2.2 _).2 hacc
  all_goals
    rintro ⟨p', hle, hm⟩
    have := hno _ hm
    simp only at this
    rw [this] at hle
    exact absurd hp (not_lt.2 hle)

variable {Ω : Type} {mΩ : MeasurableSpace Ω} {P : Measure Ω} [IsProbabilityMeasure P] {X : ℕ → Ω → Fin 2 → ℝ}

/-- Two independent variables with positive variances meet the hypotheses on the covariances. -/
theorem two_cov (hX : Drawn P X) (hi : IndepFun (fun ω => X 0 ω 0) (fun ω => X 0 ω 1) P) (h0 : 0 < Var[fun ω => X 0 ω 0; P]) (h1 : 0 < Var[fun ω => X 0 ω 1; P]) :
    (covOf P X).PosDef ∧ covOf P X 0 1 = 0 := by
  have m2 : ∀ v, MemLp (fun ω => X 0 ω v) 2 P := fun v => (hX.moment v).mono_exponent (by norm_num)
  have c : covOf P X 0 1 = 0 := hi.covariance_eq_zero (m2 0) (m2 1)
  have c' : covOf P X 1 0 = 0 := hi.symm.covariance_eq_zero (m2 1) (m2 0)
  have c0 : covOf P X 0 0 = Var[fun ω => X 0 ω 0; P] := covariance_self (m2 0).aemeasurable
  have c1 : covOf P X 1 1 = Var[fun ω => X 0 ω 1; P] := covariance_self (m2 1).aemeasurable
  refine ⟨posDef_iff.2 ⟨?_, fun t ht => ?_⟩, c⟩
  · ext a b
    exact covariance_comm _ _
  · have : t 0 ≠ 0 ∨ t 1 ≠ 0 := by
      by_contra hh
      push Not at hh
      exact ht (funext fun v => by fin_cases v; exacts [hh.1, hh.2])
    simp only [dotProduct, mulVec, Fin.sum_univ_two, c, c', c0, c1]
    rcases this with q | q
    · have := mul_pos (sq_pos_of_ne_zero q) h0
      nlinarith [mul_nonneg (sq_nonneg (t 1)) h1.le]
    · have := mul_pos (sq_pos_of_ne_zero q) h1
      nlinarith [mul_nonneg (sq_nonneg (t 0)) h0.le]

theorem two_level (hX : Drawn P X) (hi : IndepFun (fun ω => X 0 ω 0) (fun ω => X 0 ω 1) P) (h0 : 0 < Var[fun ω => X 0 ω 0; P]) (h1 : 0 < Var[fun ω => X 0 ω 1; P])
    {alpha : ℝ} (ha0 : 0 < alpha) (ha1 : alpha < 1) {A : ℕ → Set Ω}
    (hA : ∀ N ω, (corrcoef (data X N ω)).PosDef → ∀ p r, fromSub (corrcoef (data X N ω)) N 0 1 [] = .ok (.val p, .fin r) → (ω ∈ A N ↔ p < alpha)) :
    Tendsto (fun N => P (A N)) atTop (𝓝 (ENNReal.ofReal alpha)) ∧ Tendsto (fun N => P (A N)ᶜ) atTop (𝓝 (ENNReal.ofReal (1 - alpha))) := by
  obtain ⟨hS, _⟩ := two_cov hX hi h0 h1
  have hR : ∀ x : Fin 2, Residual (covOf P X) x (fun w => w ∈ ([] : List (Fin 2))) (Pi.single x 1) := fun x => by
    refine ⟨Pi.single_eq_same _ _, fun v hv => Or.inl ?_, fun z hz => by simp at hz⟩
    by_contra q
    exact hv (Pi.single_eq_of_ne q _)
  refine level_of hX hS (i := 0) (j := 1) (zs := []) (by simp) (hR 0) (hR 1) ?_ ha0 ha1 hA
  simpa [Fin.sum_univ_two] using hi

/-- **C173, PC at a fixed level.** On records of two independent variables drawn independently from a distribution with fourth moments and positive
variances, `PC.fit` at the level `alpha` joins the two by an edge with probability tending to `alpha`, and leaves no edge with probability tending to
`1 - alpha`. -/
theorem c173_pc (huv : u ≠ v) (hX : Drawn P X) (hi : IndepFun (fun ω => X 0 ω 0) (fun ω => X 0 ω 1) P) (h0 : 0 < Var[fun ω => X 0 ω 0; P])
    (h1 : 0 < Var[fun ω => X 0 ω 1; P]) {alpha : ℝ} (ha0 : 0 < alpha) (ha1 : alpha < 1)
    {search : CITest α (Cache (PV × Stat)) PV → List α → PV → Cache (PV × Stat) → Except Err (Graph α × Sep α × Cache (PV × Stat))}
    (hs : search = adjacencySearch ∨ search = fastAdjacencySearch) :
    Tendsto (fun N => P {ω | ∃ r st', pcFit search (fisherTest [u, v] (corrcoef (data X N ω)) N) [u, v] (.val alpha) [] = .ok (r, st') ∧ Conn r.causal u v})
        atTop (𝓝 (ENNReal.ofReal alpha)) ∧
      Tendsto (fun N => P {ω | ∃ r st', pcFit search (fisherTest [u, v] (corrcoef (data X N ω)) N) [u, v] (.val alpha) [] = .ok (r, st') ∧ ¬ Conn r.causal u v})
        atTop (𝓝 (ENNReal.ofReal (1 - alpha))) := by
  refine ⟨(two_level hX hi h0 h1 ha0 ha1 fun N ω hP p r h => ?_).1, ?_⟩
  · obtain ⟨res, st', e, hc, hsh⟩ := two_pc (alpha := alpha) huv hP h hs
    rw [← hc]
    refine ⟨?_, fun hq => ⟨res, st', e, hq⟩⟩
    rintro ⟨r', s', e', h'⟩
    rw [e] at e'
    simp only [Except.ok.injEq, Prod.mk.injEq] at e'
    rw [e'.1]; exact h'
  · have := (two_level (A := fun N => {ω | ∃ r st', pcFit search (fisherTest [u, v] (corrcoef (data X N ω)) N) [u, v] (.val alpha) [] = .ok (r, st') ∧
      ¬ Conn r.causal u v}ᶜ) hX hi h0 h1 ha0 ha1 fun N ω hP p r h => ?_).2
    · simpa only [compl_compl] using this
    · obtain ⟨res, st', e, hc, hsh⟩ := two_pc (alpha := alpha) huv hP h hs
      rw [← hc]
      refine ⟨fun hn => ?_, ?_⟩
      · by_contra hq
        exact hn ⟨res, st', e, hq⟩
      · rintro hq ⟨r', s', e', h'⟩
        rw [e] at e'
        simp only [Except.ok.injEq, Prod.mk.injEq] at e'
        rw [← e'.1] at h'
        exact h' hq

end pc

section witness

/-- Two variables and no edge. -/
def exNone : Graph Nat := built .digraph [1, 2] []

theorem exNone_reach : Reachable .digraph exNone := (built_reachable _ _ _ (by decide) (by decide)).reachable

theorem exNone_dir (a b : Nat) : ¬ Dir exNone a b := fun h => by
  have hm := Graph.Dir.mem exNone_reach.dg.wf h
  have hn : exNone.nodeList = [1, 2] := by decide +kernel
  rw [hn] at hm
  simp only [List.mem_cons, List.not_mem_nil, or_false] at hm
  unfold Dir at h
  rcases hm with ⟨rfl | rfl, rfl | rfl⟩ <;> revert h <;> decide +kernel

theorem dsep_none {β : Type} {R : β → β → Prop} (h : ∀ a b, ¬ R a b) {x y : β} (hxy : x ≠ y) (Z : β → Prop) : DSep R x y Z := by
  rintro p ⟨_, h1, h2, h3⟩
  exfalso
  match p with
  | [] => simp at h1
  | [a] =>
    simp only [List.head?_cons, Option.some.injEq, List.getLast?_singleton] at h1 h2
    exact hxy (h1.symm.trans h2)
  | a :: b :: t =>
    rcases h3 a b ⟨[], t, rfl⟩ with q | q
    · exact h _ _ q
    · exact h _ _ q

/-- Records of two independent standard normal variables. -/
theorem exNormal : ∃ (Ω : Type) (_ : MeasurableSpace Ω) (P : Measure Ω) (_ : IsProbabilityMeasure P) (X : ℕ → Ω → Fin 2 → ℝ), Drawn P X ∧
    IndepFun (fun ω => X 0 ω 0) (fun ω => X 0 ω 1) P ∧ ∀ v, Var[fun ω => X 0 ω v; P] = 1 := by
  obtain ⟨Ω, mΩ, P, E, hm, hl, hi, hP⟩ := exists_iid ℕ (Measure.pi fun _ : Fin 2 => gaussianReal 0 1)
  have hlaw : ∀ v, HasLaw (fun ω => E 0 ω v) (gaussianReal 0 1) P := fun v =>
    ((measurePreserving_eval (fun _ : Fin 2 => gaussianReal 0 1) v).comp ((hl 0).measurePreserving (hm 0))).hasLaw
  refine ⟨Ω, mΩ, P, hP, E, ⟨hi, fun s => ⟨(hm s).aemeasurable, (hm 0).aemeasurable, by rw [(hl s).map_eq, (hl 0).map_eq]⟩, fun v => ?_⟩, ?_, fun v => ?_⟩
  · exact (memLp_id_gaussianReal' 4 (by simp)).comp_measurePreserving
      ((measurePreserving_eval (fun _ : Fin 2 => gaussianReal 0 1) v).comp ((hl 0).measurePreserving (hm 0)))
  · exact ((iIndepFun_iff_hasLaw_pi_pi hlaw).2 (hl 0)).indepFun (by decide)
  · rw [(hlaw v).variance_eq]
    simp

/-- **C173, PC at a fixed level is not consistent.** One would expect PC at a usual level, fixed as the records grow in number, to leave the CPDAG of the
true graph with probability tending to one. It does not: with two independent normal variables, which meet every hypothesis of `c172_pc` but that on the
level, the probability tends to `1 - alpha`. -/
theorem c173_fixed_false {alpha : ℝ} (ha0 : 0 < alpha) (ha1 : alpha < 1) {so : List Nat → List Nat} (hso : ∀ l, (so l).Perm l)
    {search : CITest Nat (Cache (PV × Stat)) PV → List Nat → PV → Cache (PV × Stat) → Except Err (Graph Nat × Sep Nat × Cache (PV × Stat))}
    (hs : search = adjacencySearch ∨ search = fastAdjacencySearch) :
    ∃ (G : Graph Nat) (Ω : Type) (_ : MeasurableSpace Ω) (P : Measure Ω) (_ : IsProbabilityMeasure P) (X : ℕ → Ω → Fin G.nodes.length → ℝ),
      Reachable .digraph G ∧ Acyclic (Dir G) ∧ Drawn P X ∧
      LinearModel (fun i j => Dir G (G.nodes.get i) (G.nodes.get j)) (covOf P X) ∧
      Faithful (fun i j => Dir G (G.nodes.get i) (G.nodes.get j)) (covOf P X) ∧
      Tendsto (fun N => P {ω | ∃ r st' c, pcFit search (fisherTest G.nodes (corrcoef (data X N ω)) N) G.nodes (.val alpha) [] = .ok (r, st') ∧
        dag2cpdag so G = .ok c ∧ r.causal.graphEqual c = .ok true ∧ ∀ u v, r.causal.getEdge u v = c.getEdge u v}) atTop (𝓝 (ENNReal.ofReal (1 - alpha))) := by
  obtain ⟨Ω, mΩ, P, hP, X, hX, hi, hv⟩ := exNormal
  have v0 : 0 < Var[fun ω => X 0 ω 0; P] := by rw [hv]; exact one_pos
  have v1 : 0 < Var[fun ω => X 0 ω 1; P] := by rw [hv]; exact one_pos
  have m2 : ∀ v, MemLp (fun ω => X 0 ω v) 2 P := fun v => (hX.moment v).mono_exponent (by norm_num)
  have hC : covOf P X = 1 := by
    ext a b
    fin_cases a <;> fin_cases b
    · exact (covariance_self (m2 0).aemeasurable).trans (hv 0)
    · exact hi.covariance_eq_zero (m2 0) (m2 1)
    · exact hi.symm.covariance_eq_zero (m2 1) (m2 0)
    · exact (covariance_self (m2 1).aemeasurable).trans (hv 1)
  have hac : Acyclic (Dir exNone) := acyclic_of_check exNone_reach (by decide +kernel)
  have hL : LinearModel (fun i j : Fin 2 => Dir exNone ([1, 2].get i) ([1, 2].get j)) (covOf P X) :=
    ⟨0, fun _ => 1, fun v u h => absurd rfl h, fun _ => one_pos, by rw [hC]; simp⟩
  refine ⟨exNone, Ω, mΩ, P, hP, X, exNone_reach, hac, hX, hL,
    fun x y Z hxy _ _ _ => dsep_none (fun _ _ => exNone_dir _ _) hxy Z, ?_⟩
  have hfin := (two_level (alpha := alpha) (A := fun N => {ω | ∃ r st' c, pcFit search (fisherTest exNone.nodes (corrcoef (data X N ω)) N) exNone.nodes
      (.val alpha) [] = .ok (r, st') ∧
      dag2cpdag so exNone = .ok c ∧ r.causal.graphEqual c = .ok true ∧ ∀ u v, r.causal.getEdge u v = c.getEdge u v}ᶜ) hX hi v0 v1 ha0 ha1
      fun N ω hPd p r h => ?_).2
  · exact hfin.congr fun N => congrArg P (compl_compl _)
  · obtain ⟨res, st', e, hc, hsh⟩ := two_pc (u := 1) (v := 2) (alpha := alpha) (by decide) hPd h hs
    constructor
    · intro hn
      by_contra hp
      refine hn (c32_pc_oracle exNone_reach hac hso (I := CacheInv (fisherzFromCorr (corrcoef (data X N ω)) N)) ?_ CacheInv.nil search hs)
      intro a b z hl s hinv
      obtain ⟨s', e, hs'⟩ := two_ans (u := 1) (v := 2) (by decide) hPd h hl s hinv
      refine ⟨.val p, s', e, hs', fun _ => dsep_none exNone_dir hl.2.2.1 _, fun _ => ?_⟩
      exact not_lt.1 hp
    · rintro hp ⟨r', s', c, e', hd, _, hedge⟩
      have ee : (res, st') = (r', s') := by
        have := e.symm.trans e'
        simpa only [Except.ok.injEq] using this
      simp only [Prod.mk.injEq] at ee
      obtain ⟨c', hd', hr, _, hadj, _⟩ := c23_dag2cpdag hso exNone_reach hac
      rw [hd] at hd'
      obtain rfl := Except.ok.inj hd'
      have hno : ∀ a b, ¬ Conn c a b := fun a b q => by
        rcases (hadj a b).1 q with q | q
        · exact exNone_dir _ _ q
        · exact exNone_dir _ _ q
      have key : ∀ a b w, res.causal.getEdge a b = .ok (some w) → False := fun a b w q => by
        rw [ee.1, hedge a b] at q
        refine hno a b ?_
        unfold Conn
        unfold Graph.getEdge at q
        cases hq : c.isConnected a b with
        | error e => rw [hq] at q; cases q
        | ok t =>
          cases t
          · rw [hq] at q; cases q
          · rfl
      rcases hsh (hc.2 hp) with q | q | q
      · exact key _ _ _ q
      · exact key _ _ _ q
      · exact key _ _ _ q

/-- A fixed level of one in twenty: the CPDAG is found with probability tending to nineteen in twenty, not one. -/
example := c173_fixed_false (alpha := 1 / 20) (by norm_num) (by norm_num) (so := id) (fun l => List.Perm.refl l) (search := adjacencySearch) (Or.inl rfl)

example : ∃ (Ω : Type) (_ : MeasurableSpace Ω) (P : Measure Ω) (X : ℕ → Ω → Fin 2 → ℝ),
    Tendsto (fun N => P {ω | ∃ r st', pcFit fastAdjacencySearch (fisherTest ["a", "b"] (corrcoef (data X N ω)) N) ["a", "b"] (.val (1 / 20)) [] = .ok (r, st') ∧
      Conn r.causal "a" "b"}) atTop (𝓝 (ENNReal.ofReal (1 / 20))) := by
  obtain ⟨Ω, mΩ, P, hP, X, hX, hi, hv⟩ := exNormal
  exact ⟨Ω, mΩ, P, X, (c173_pc (by decide) hX hi (by rw [hv]; exact one_pos) (by rw [hv]; exact one_pos) (by norm_num) (by norm_num) (Or.inr rfl)).1⟩

/-- The ends of the chain, given its middle. -/
example : ∃ (Ω : Type) (_ : MeasurableSpace Ω) (P : Measure Ω) (X : ℕ → Ω → Fin 3 → ℝ),
    Tendsto (fun N => P {ω | ∃ p r, fisherzFromCorr (corrcoef (data X N ω)) N ((0 : Fin 3) : ℕ) ((2 : Fin 3) : ℕ) (some ([1].map fun k : Fin 3 => ((k : ℕ) : ℤ))) =
      .ok (.val p, r) ∧ p < 1 / 20}) atTop (𝓝 (ENNReal.ofReal (1 / 20))) := by
  obtain ⟨Ω, mΩ, P, hP, E, hm, hl, hX, hC⟩ := exErrors
  have hlaw : ∀ v, HasLaw (fun ω => E 0 ω v) (gaussianReal 0 1) P := fun v =>
    ((measurePreserving_eval (fun _ : Fin 3 => gaussianReal 0 1) v).comp ((hl 0).measurePreserving (hm 0))).hasLaw
  have hind := (((iIndepFun_iff_hasLaw_pi_pi hlaw).2 (hl 0)).indepFun_prodMk (fun v => (measurable_pi_apply v).comp (hm 0)) 0 1 2 (by decide) (by decide)).comp
    (φ := fun p : ℝ × ℝ => p.1 / 2 - p.2 / 2) (ψ := fun x => x) (by fun_prop) measurable_id
  refine ⟨Ω, mΩ, P, fun s ω v => exX v (E s ω), (c173_level (e := ![1, -1 / 2, 0]) (c := ![0, -1, 1]) hX (hC ▸ exPosDef) (by decide) ?_ ?_ ?_ (by norm_num) (by norm_num)).1⟩
  · rw [hC]
    refine ⟨rfl, fun v => ?_, fun z hz => ?_⟩
    · fin_cases v <;> simp
    · simp only [List.mem_singleton] at hz
      subst hz
      simp [exCov, mulVec, dotProduct, Fin.sum_univ_three]
      norm_num
  · rw [hC]
    refine ⟨rfl, fun v => ?_, fun z hz => ?_⟩
    · fin_cases v <;> simp
    · simp only [List.mem_singleton] at hz
      subst hz
      simp [exCov, mulVec, dotProduct, Fin.sum_univ_three]
  · convert hind using 1
    · funext ω
      simp [exX, Fin.sum_univ_three]
      ring
    · funext ω
      simp [exX, Fin.sum_univ_three]
      ring

end witness

end Cdmir.Level
