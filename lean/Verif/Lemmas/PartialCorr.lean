import Verif.Lemmas.Markov
import Mathlib.LinearAlgebra.Matrix.PosDef

/-! Residuals, partial covariances, and the inverse of the correlation matrix. -/

set_option linter.unusedSectionVars false

namespace Cdmir
namespace Spec
open Matrix
variable {V : Type} [Fintype V] [DecidableEq V]

theorem posDef_iff {C : Matrix V V ℝ} : C.PosDef ↔ C.transpose = C ∧ ∀ t : V → ℝ, t ≠ 0 → 0 < dotProduct t (C.mulVec t) := by
  rw [posDef_iff_dotProduct_mulVec]
  constructor
  · rintro ⟨h1, h2⟩
    exact ⟨by simpa [IsHermitian, conjTranspose_eq_transpose_of_trivial] using h1, fun t ht => by simpa using h2 ht⟩
  · rintro ⟨h1, h2⟩
    exact ⟨by simpa [IsHermitian, conjTranspose_eq_transpose_of_trivial] using h1, fun t ht => by simpa using h2 t ht⟩

theorem det_one_sub {R : V → V → Prop} {B : Matrix V V ℝ} (ac : Acyclic R) (hB : ∀ v u, B v u ≠ 0 → R u v) : (1 - B).det ≠ 0 := by
  intro h0
  obtain ⟨t, ht, h⟩ := Matrix.exists_mulVec_eq_zero_iff.2 h0
  refine ht (funext fun k => solve_zero ac hB (S := fun _ => True) (fun _ _ _ _ => trivial) (fun k _ => ?_) k trivial)
  rw [h]; rfl

theorem LinearModel.posDef {R : V → V → Prop} {C : Matrix V V ℝ} (ac : Acyclic R) (h : LinearModel R C) : C.PosDef := by
  obtain ⟨B, d, hB, hd, hC⟩ := h
  have hu : IsUnit (1 - B).det := isUnit_iff_ne_zero.2 (det_one_sub ac hB)
  have hu' : IsUnit (1 - B).transpose.det := by rwa [det_transpose]
  refine posDef_iff.2 ⟨?_, fun t ht => ?_⟩
  · have h1 : (1 - B) * C.transpose * (1 - B).transpose = (1 - B) * C * (1 - B).transpose := by
      have := congrArg transpose hC
      rw [transpose_mul, transpose_mul, transpose_transpose, diagonal_transpose, ← mul_assoc] at this
      rw [this, hC]
    have h2 := congrArg (fun M => (1 - B)⁻¹ * M * (1 - B).transpose⁻¹) h1
    simp only [mul_assoc, mul_nonsing_inv _ hu', mul_one] at h2
    simpa only [← mul_assoc, nonsing_inv_mul _ hu, one_mul] using h2
  · let s := (1 - B).transpose⁻¹.mulVec t
    have hs : (1 - B).transpose.mulVec s = t := by
      simp only [s]
      rw [mulVec_mulVec, mul_nonsing_inv _ hu', one_mulVec]
    have hs0 : s ≠ 0 := by
      intro h0
      rw [h0, mulVec_zero] at hs
      exact ht hs.symm
    have e : dotProduct t (C.mulVec t) = ∑ k, d k * s k ^ 2 := by
      have : dotProduct t (C.mulVec t) = dotProduct s ((diagonal d).mulVec s) := by
        rw [← hC, ← mulVec_mulVec, ← mulVec_mulVec, hs, dotProduct_mulVec s, ← mulVec_transpose, hs]
      rw [this, dotProduct]
      refine Finset.sum_congr rfl fun k _ => ?_
      rw [mulVec_diagonal]; ring
    rw [e]
    obtain ⟨k, hk⟩ := Function.ne_iff.1 hs0
    exact Finset.sum_pos' (fun k _ => mul_nonneg (hd k).le (sq_nonneg _)) ⟨k, Finset.mem_univ _, mul_pos (hd k) (sq_pos_of_ne_zero hk)⟩

/-- Other units of measurement. -/
def rescale (g : V → ℝ) (C : Matrix V V ℝ) : Matrix V V ℝ := diagonal g * C * diagonal g

theorem rescale_apply (g : V → ℝ) (C : Matrix V V ℝ) (u v : V) : rescale g C u v = g u * C u v * g v := by
  rw [rescale, mul_diagonal, diagonal_mul]

theorem corrOf_eq (C : Matrix V V ℝ) : corrOf C = rescale (fun i => (Real.sqrt (C i i))⁻¹) C := by
  ext i j
  rw [rescale_apply, corrOf, of_apply, div_eq_mul_inv, mul_inv]; ring

theorem rescale_mulVec (g : V → ℝ) (C : Matrix V V ℝ) (c : V → ℝ) (v : V) :
    (rescale g C).mulVec c v = g v * C.mulVec (fun u => g u * c u) v := by
  simp only [mulVec, dotProduct, rescale_apply, Finset.mul_sum]
  exact Finset.sum_congr rfl fun u _ => by ring

theorem LinearModel.rescale {R : V → V → Prop} {C : Matrix V V ℝ} (h : LinearModel R C) {g : V → ℝ} (hg : ∀ v, g v ≠ 0) :
    LinearModel R (rescale g C) := by
  obtain ⟨B, d, hB, hd, hC⟩ := h
  have h1 : diagonal (fun v => (g v)⁻¹) * diagonal g = (1 : Matrix V V ℝ) := by
    rw [diagonal_mul_diagonal, ← diagonal_one]
    congr 1; ext v; exact inv_mul_cancel₀ (hg v)
  have h2 : diagonal g * diagonal (fun v => (g v)⁻¹) = (1 : Matrix V V ℝ) := by
    rw [diagonal_mul_diagonal, ← diagonal_one]
    congr 1; ext v; exact mul_inv_cancel₀ (hg v)
  refine ⟨diagonal g * B * diagonal (fun v => (g v)⁻¹), fun v => g v * d v * g v, fun v u h => hB v u fun h0 => h ?_, fun v => ?_, ?_⟩
  · rw [mul_diagonal, diagonal_mul, h0]; ring
  · have := hd v
    have := mul_self_pos.2 (hg v)
    nlinarith [mul_pos (hd v) this]
  · have e : 1 - diagonal g * B * diagonal (fun v => (g v)⁻¹) = diagonal g * (1 - B) * diagonal (fun v => (g v)⁻¹) := by
      rw [mul_sub, sub_mul, mul_one, h2]
    rw [e, transpose_mul, transpose_mul, diagonal_transpose, diagonal_transpose, Spec.rescale]
    calc _ = diagonal g * (1 - B) * (diagonal (fun v => (g v)⁻¹) * diagonal g) * C * (diagonal g * diagonal (fun v => (g v)⁻¹)) *
            (1 - B).transpose * diagonal g := by simp only [mul_assoc]
      _ = diagonal g * ((1 - B) * C * (1 - B).transpose) * diagonal g := by rw [h1, h2]; simp only [mul_assoc, mul_one]
      _ = _ := by
        rw [hC, diagonal_mul_diagonal, diagonal_mul_diagonal]

theorem PartialUncorr.of_rescale {C : Matrix V V ℝ} {g : V → ℝ} (hg : ∀ v, g v ≠ 0) {x y : V} {Z : V → Prop}
    (h : PartialUncorr (Spec.rescale g C) x y Z) : PartialUncorr C x y Z := by
  obtain ⟨c, ⟨h1, h2, h3⟩, h4⟩ := h
  have e : C.mulVec (fun v => g v * c v / g x) = (g x)⁻¹ • C.mulVec (fun v => g v * c v) := by
    rw [← mulVec_smul]
    congr 1; ext v; simp [div_eq_inv_mul]
  refine ⟨fun v => g v * c v / g x, ⟨?_, fun v hv => h2 v ?_, fun z hz => ?_⟩, ?_⟩
  · simp [h1, hg x]
  · rintro h0; exact hv (by simp [h0])
  · have := h3 z hz
    rw [rescale_mulVec, mul_eq_zero] at this
    rw [e, Pi.smul_apply, this.resolve_left (hg z), smul_zero]
  · rw [rescale_mulVec, mul_eq_zero] at h4
    rw [e, Pi.smul_apply, h4.resolve_left (hg y), smul_zero]

theorem rescale_inv {C : Matrix V V ℝ} {g : V → ℝ} (hg : ∀ v, g v ≠ 0) : Spec.rescale (fun v => (g v)⁻¹) (Spec.rescale g C) = C := by
  ext u v
  rw [rescale_apply, rescale_apply]
  field_simp [hg u, hg v]

theorem partialUncorr_rescale {C : Matrix V V ℝ} {g : V → ℝ} (hg : ∀ v, g v ≠ 0) {x y : V} {Z : V → Prop} :
    PartialUncorr (Spec.rescale g C) x y Z ↔ PartialUncorr C x y Z := by
  refine ⟨PartialUncorr.of_rescale hg, fun h => ?_⟩
  rw [← rescale_inv (C := C) hg] at h
  exact PartialUncorr.of_rescale (fun v => inv_ne_zero (hg v)) h

theorem posDef_rescale {C : Matrix V V ℝ} (hC : C.PosDef) {g : V → ℝ} (hg : ∀ v, g v ≠ 0) : (Spec.rescale g C).PosDef := by
  rw [posDef_iff] at hC ⊢
  refine ⟨?_, fun t ht => ?_⟩
  · ext u v
    rw [transpose_apply, rescale_apply, rescale_apply, show C v u = C u v from congrFun (congrFun hC.1 u) v]; ring
  · have hne : (fun v => g v * t v) ≠ 0 := by
      obtain ⟨k, hk⟩ := Function.ne_iff.1 ht
      intro h0
      have := congrFun h0 k
      exact (mul_ne_zero (hg k) hk) this
    have := hC.2 _ hne
    have e : dotProduct t ((Spec.rescale g C).mulVec t) = dotProduct (fun v => g v * t v) (C.mulVec (fun v => g v * t v)) := by
      unfold dotProduct
      refine Finset.sum_congr rfl fun v _ => ?_
      rw [rescale_mulVec]; ring
    rwa [e]

theorem sqrt_diag_ne {C : Matrix V V ℝ} (hC : C.PosDef) (v : V) : (Real.sqrt (C v v))⁻¹ ≠ 0 :=
  inv_ne_zero (Real.sqrt_pos.2 (PosDef.diag_pos hC)).ne'

/-- **Global Markov property**, with the residual of `x`. -/
theorem markov_residual {R : V → V → Prop} {C : Matrix V V ℝ} (ac : Acyclic R) (hC : LinearModel R C) {Z : V → Prop} {x y : V} (hx : ¬ Z x)
    (hd : DSep R x y Z) : PartialUncorr C x y Z := by
  obtain ⟨c, h1, h2, h3, h4⟩ := markov ac hC hx hd
  have hP := posDef_iff.1 (hC.posDef ac)
  have hc0 : c ≠ 0 := by rintro rfl; simp at h2
  have hq := hP.2 c hc0
  have e : dotProduct c (C.mulVec c) = c x := by
    unfold dotProduct
    rw [Finset.sum_eq_single x]
    · rw [h2, mul_one]
    · intro v _ hv
      by_cases h : c v = 0
      · rw [h, zero_mul]
      · rw [h4 v ((h1 v h).resolve_left hv), mul_zero]
    · simp
  have hx0 : c x ≠ 0 := by rw [← e]; exact hq.ne'
  have es : C.mulVec (fun v => c v / c x) = (c x)⁻¹ • C.mulVec c := by
    rw [← mulVec_smul]; congr 1; ext v; simp [div_eq_inv_mul]
  refine ⟨fun v => c v / c x, ⟨div_self hx0, fun v hv => h1 v fun h0 => hv (by simp [h0]), fun z hz => ?_⟩, ?_⟩
  · rw [es, Pi.smul_apply, h4 z hz, smul_zero]
  · rw [es, Pi.smul_apply, h3, smul_zero]

section sub
variable {m : ℕ} {C : Matrix V V ℝ} {f : Fin (m + 2) → V} {Z : V → Prop}

/-- Variables supported on the chosen positions. -/
theorem sub_mulVec (hf : Function.Injective f) {c : V → ℝ} (hc : ∀ v, c v ≠ 0 → ∃ p, f p = v) (q : Fin (m + 2)) :
    (C.submatrix f f).mulVec (fun p => c (f p)) q = C.mulVec c (f q) := by
  simp only [mulVec, dotProduct, submatrix_apply]
  refine Finset.sum_of_injOn f (fun _ _ _ _ h => hf h) (fun _ _ => Finset.mem_coe.2 (Finset.mem_univ _)) ?_ (fun _ _ => rfl)
  intro v _ hv
  by_contra h
  obtain ⟨p, hp⟩ := hc v fun h0 => h (by rw [h0, mul_zero])
  exact hv ⟨p, Finset.mem_coe.2 (Finset.mem_univ _), hp⟩

theorem inv_eq_of {S : Matrix (Fin (m + 2)) (Fin (m + 2)) ℝ} (hS : S.det ≠ 0) {t : Fin (m + 2) → ℝ} {u v : ℝ}
    (h0 : S.mulVec t 0 = u) (h1 : S.mulVec t 1 = v) (h2 : ∀ p, p ≠ 0 → p ≠ 1 → S.mulVec t p = 0) (q : Fin (m + 2)) :
    t q = S⁻¹ q 0 * u + S⁻¹ q 1 * v := by
  have e : t = S⁻¹.mulVec (S.mulVec t) := by rw [mulVec_mulVec, nonsing_inv_mul _ (isUnit_iff_ne_zero.2 hS), one_mulVec]
  rw [congrFun e q, mulVec, dotProduct, Finset.sum_eq_add (0 : Fin (m + 2)) 1 (by simp) (fun p _ hp => by rw [h2 p hp.1 hp.2, mul_zero])
    (by simp) (by simp), h0, h1]

/-- The chosen positions are `x`, `y` and the members of `Z`, each once. -/
structure Picks (f : Fin (m + 2) → V) (x y : V) (Z : V → Prop) : Prop where
  inj : Function.Injective f
  fst : f 0 = x
  snd : f 1 = y
  rest : ∀ v, Z v ↔ ∃ p, p ≠ 0 ∧ p ≠ 1 ∧ f p = v

variable {x y : V}

theorem Picks.snd_notMem (hf : Picks f x y Z) : ¬ Z y := by
  intro h
  obtain ⟨p, _, h1, h2⟩ := (hf.rest y).1 h
  exact h1 (hf.inj (h2.trans hf.snd.symm))

theorem Picks.fst_notMem (hf : Picks f x y Z) : ¬ Z x := by
  intro h
  obtain ⟨p, h0, _, h2⟩ := (hf.rest x).1 h
  exact h0 (hf.inj (h2.trans hf.fst.symm))

theorem Picks.ne (hf : Picks f x y Z) : x ≠ y := by
  rintro rfl
  exact absurd (hf.inj (hf.fst.trans hf.snd.symm)) (by simp)

theorem Picks.supp_fst (hf : Picks f x y Z) {v : V} (h : v = x ∨ Z v) : ∃ p, f p = v := by
  rcases h with rfl | h
  · exact ⟨0, hf.fst⟩
  · obtain ⟨p, _, _, h⟩ := (hf.rest v).1 h; exact ⟨p, h⟩

theorem Picks.supp_snd (hf : Picks f x y Z) {v : V} (h : v = y ∨ Z v) : ∃ p, f p = v := by
  rcases h with rfl | h
  · exact ⟨1, hf.snd⟩
  · obtain ⟨p, _, _, h⟩ := (hf.rest v).1 h; exact ⟨p, h⟩

/-- The first two columns of the inverse, by the residual of `x`. -/
theorem residual_fst (hf : Picks f x y Z) (hS : (C.submatrix f f).det ≠ 0) {a : V → ℝ} (ha : Residual C x Z a) :
    (C.submatrix f f)⁻¹ 0 0 * C.mulVec a x + (C.submatrix f f)⁻¹ 0 1 * C.mulVec a y = 1 ∧
    (C.submatrix f f)⁻¹ 1 0 * C.mulVec a x + (C.submatrix f f)⁻¹ 1 1 * C.mulVec a y = 0 := by
  obtain ⟨h1, h2, h3⟩ := ha
  have hc : ∀ v, a v ≠ 0 → ∃ p, f p = v := fun v hv => hf.supp_fst (h2 v hv)
  have key := inv_eq_of hS (t := fun p => a (f p)) (sub_mulVec hf.inj hc 0) (sub_mulVec hf.inj hc 1)
    (fun p hp hp' => by rw [sub_mulVec hf.inj hc p]; exact h3 _ ((hf.rest _).2 ⟨p, hp, hp', rfl⟩))
  rw [hf.fst, hf.snd] at key
  have k0 := key 0
  have k1 := key 1
  simp only [hf.fst, hf.snd] at k0 k1
  have hy0 : a y = 0 := by
    by_contra h
    rcases h2 y h with h | h
    · exact hf.ne h.symm
    · exact hf.snd_notMem h
  rw [h1] at k0
  rw [hy0] at k1
  exact ⟨k0.symm, k1.symm⟩

theorem residual_snd (hf : Picks f x y Z) (hS : (C.submatrix f f).det ≠ 0) {b : V → ℝ} (hb : Residual C y Z b) :
    (C.submatrix f f)⁻¹ 0 0 * C.mulVec b x + (C.submatrix f f)⁻¹ 0 1 * C.mulVec b y = 0 ∧
    (C.submatrix f f)⁻¹ 1 0 * C.mulVec b x + (C.submatrix f f)⁻¹ 1 1 * C.mulVec b y = 1 := by
  obtain ⟨h1, h2, h3⟩ := hb
  have hc : ∀ v, b v ≠ 0 → ∃ p, f p = v := fun v hv => hf.supp_snd (h2 v hv)
  have key := inv_eq_of hS (t := fun p => b (f p)) (sub_mulVec hf.inj hc 0) (sub_mulVec hf.inj hc 1)
    (fun p hp hp' => by rw [sub_mulVec hf.inj hc p]; exact h3 _ ((hf.rest _).2 ⟨p, hp, hp', rfl⟩))
  rw [hf.fst, hf.snd] at key
  have k0 := key 0
  have k1 := key 1
  simp only [hf.fst, hf.snd] at k0 k1
  have hx0 : b x = 0 := by
    by_contra h
    rcases h2 x h with h | h
    · exact hf.ne h
    · exact hf.fst_notMem h
  rw [hx0] at k0
  rw [h1] at k1
  exact ⟨k0.symm, k1.symm⟩

/-- The covariance of a residual with a variable uncorrelated with `Z`. -/
theorem covar_residual {x : V} {a b : V → ℝ} (ha : Residual C x Z a) (hb : ∀ z, Z z → C.mulVec b z = 0) : covar C a b = C.mulVec b x := by
  have e : covar C a b = ∑ u, a u * C.mulVec b u := by
    unfold covar mulVec dotProduct
    exact Finset.sum_congr rfl fun u _ => by rw [Finset.mul_sum]; exact Finset.sum_congr rfl fun v _ => by ring
  rw [e, Finset.sum_eq_single x]
  · rw [ha.1, one_mul]
  · intro v _ hv
    by_cases h : a v = 0
    · rw [h, zero_mul]
    · rw [hb v ((ha.2.1 v h).resolve_left hv), mul_zero]
  · simp

/-- The residual exists. -/
theorem residual_of_inv (hf : Picks f x y Z) (hS : (C.submatrix f f).PosDef) (h01 : (C.submatrix f f)⁻¹ 1 0 = 0) :
    PartialUncorr C x y Z := by
  set S := C.submatrix f f with hSd
  have hdet : S.det ≠ 0 := isUnit_iff_ne_zero.1 ((isUnit_iff_isUnit_det _).1 hS.isUnit)
  have hpos : 0 < S⁻¹ 0 0 := PosDef.diag_pos hS.inv
  classical
  let c : V → ℝ := fun v => if h : ∃ p, f p = v then S⁻¹ h.choose 0 / S⁻¹ 0 0 else 0
  have hcf : ∀ p, c (f p) = S⁻¹ p 0 / S⁻¹ 0 0 := by
    intro p
    have h : ∃ q, f q = f p := ⟨p, rfl⟩
    simp only [c, dif_pos h]
    rw [hf.inj h.choose_spec]
  have hc : ∀ v, c v ≠ 0 → ∃ p, f p = v := by
    intro v hv
    by_contra h
    exact hv (by simp only [c, dif_neg h])
  have hmul : ∀ q, C.mulVec c (f q) = if q = 0 then 1 / S⁻¹ 0 0 else 0 := by
    intro q
    rw [← sub_mulVec hf.inj hc q, ← hSd]
    have e : (fun p => c (f p)) = (1 / S⁻¹ 0 0) • S⁻¹.mulVec (Pi.single 0 1) := by
      ext p
      rw [hcf, Pi.smul_apply, mulVec_single_one, smul_eq_mul, col_apply]; ring
    rw [e, mulVec_smul, mulVec_mulVec, mul_nonsing_inv _ (isUnit_iff_ne_zero.2 hdet), one_mulVec, Pi.smul_apply, Pi.single_apply, smul_eq_mul]
    split_ifs <;> simp
  refine ⟨c, ⟨?_, fun v hv => ?_, fun z hz => ?_⟩, ?_⟩
  · rw [← hf.fst, hcf, div_self hpos.ne']
  · obtain ⟨p, rfl⟩ := hc v hv
    by_cases h0 : p = 0
    · left; rw [h0, hf.fst]
    · by_cases h1 : p = 1
      · exfalso; apply hv; rw [hcf, h1, h01, zero_div]
      · right; exact (hf.rest _).2 ⟨p, h0, h1, rfl⟩
  · obtain ⟨p, h0, _, rfl⟩ := (hf.rest z).1 hz
    rw [hmul, if_neg h0]
  · rw [← hf.snd, hmul, if_neg (by simp)]

end sub

end Spec
end Cdmir
