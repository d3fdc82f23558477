import Verif.Lemmas.LocalScore
import Verif.Lemmas.PartialCorr
import Mathlib.Analysis.SpecialFunctions.Log.Basic
import Mathlib.Analysis.SpecialFunctions.Pow.Asymptotics

/-! The gain of the BIC score by one more parent: the partial covariance with it. -/

namespace Cdmir.LocalScore
open BigOperators Spec Matrix

variable {n : Nat} {C : Matrix (Fin n) (Fin n) ℝ} {j : Fin n} {l : List (Fin n)}

/-- The residual exists, and its variance is the ratio of two minors. -/
theorem exists_residual (hC : C.PosDef) (hl : l.Nodup) (hj : j ∉ l) :
    ∃ c, Residual C j (fun x => x ∈ l) c ∧ minor C (insert j l.toFinset) = minor C l.toFinset * C.mulVec c j := by
  have hs := LocalScore.posDef_symm hC
  have hd : (blockAt C l).det ≠ 0 := by rw [blockAt_det C hl]; exact (minor_pos hC _).ne'
  let x : Fin l.length → ℝ := (blockAt C l)⁻¹.mulVec fun k => C j (l.get k)
  let c : Fin n → ℝ := Pi.single j 1 - ∑ k, x k • Pi.single (l.get k) 1
  have hc : ∀ v, c v = (Pi.single j 1 : Fin n → ℝ) v - ∑ k, x k * (Pi.single (l.get k) 1 : Fin n → ℝ) v := by
    intro v
    simp only [c, Pi.sub_apply, Finset.sum_apply, Pi.smul_apply, smul_eq_mul]
  have hm : ∀ v, C.mulVec c v = C v j - ∑ k, C v (l.get k) * x k := by
    intro v
    simp only [c, mulVec_sub, Pi.sub_apply, mulVec_single_one, col_apply]
    congr 1
    rw [mulVec_sum, Finset.sum_apply]
    exact Finset.sum_congr rfl fun k _ => by rw [mulVec_smul, Pi.smul_apply, mulVec_single_one, col_apply, smul_eq_mul, mul_comm]
  have hx : (blockAt C l).mulVec x = fun k => C j (l.get k) := by
    simp only [x]
    rw [mulVec_mulVec, mul_nonsing_inv _ (isUnit_iff_ne_zero.2 hd), one_mulVec]
  refine ⟨c, ⟨?_, fun v hv => ?_, fun z hz => ?_⟩, ?_⟩
  · rw [hc, Pi.single_eq_same, Finset.sum_eq_zero, sub_zero]
    intro k _
    have : j ≠ l.get k := fun q => hj (by rw [q]; exact List.get_mem l k)
    rw [Pi.single_eq_of_ne this, mul_zero]
  · by_contra hn
    push Not at hn
    refine hv ?_
    rw [hc, Pi.single_eq_of_ne hn.1, Finset.sum_eq_zero, sub_zero]
    intro k _
    have : v ≠ l.get k := fun q => hn.2 (by rw [q]; exact List.get_mem l k)
    rw [Pi.single_eq_of_ne this, mul_zero]
  · obtain ⟨m, rfl⟩ := List.get_of_mem hz
    rw [hm]
    have := congrFun hx m
    simp only [mulVec, dotProduct, blockAt] at this
    rw [this, hs, sub_self]
  · rw [minor_insert hs hl hj hd, hm]
    congr 2
    rw [Matrix.mul_assoc, Matrix.mul_apply]
    refine Finset.sum_congr rfl fun k _ => ?_
    simp only [rowAt, x, mulVec, dotProduct, Matrix.mul_apply, transpose_apply]

/-- There is one residual only. -/
theorem residual_unique (hC : C.PosDef) {Z : Fin n → Prop} (hj : ¬ Z j) {c c' : Fin n → ℝ} (h : Residual C j Z c) (h' : Residual C j Z c') : c = c' := by
  by_contra hne
  have hpos := (posDef_iff.1 hC).2 (c - c') (sub_ne_zero.2 hne)
  refine absurd hpos (not_lt.2 (le_of_eq ?_))
  unfold dotProduct
  refine Finset.sum_eq_zero fun v _ => ?_
  by_cases hv : Z v
  · rw [mulVec_sub, Pi.sub_apply (C.mulVec c), h.2.2 v hv, h'.2.2 v hv, sub_self, mul_zero]
  · have h0 : c v = c' v := by
      by_cases e : v = j
      · subst e; rw [h.1, h'.1]
      · have h1 : c v = 0 := by by_contra k; exact (h.2.1 v k).elim e hv
        have h2 : c' v = 0 := by by_contra k; exact (h'.2.1 v k).elim e hv
        rw [h1, h2]
    rw [Pi.sub_apply, h0, sub_self, zero_mul]

theorem minor_residual (hC : C.PosDef) (hl : l.Nodup) (hj : j ∉ l) {c : Fin n → ℝ} (h : Residual C j (fun x => x ∈ l) c) :
    minor C (insert j l.toFinset) = minor C l.toFinset * C.mulVec c j := by
  obtain ⟨c', h', e⟩ := exists_residual hC hl hj
  rwa [residual_unique hC hj h h']

theorem covar_comm (hs : ∀ i j, C i j = C j i) (a b : Fin n → ℝ) : covar C a b = covar C b a := by
  unfold covar
  rw [Finset.sum_comm]
  exact Finset.sum_congr rfl fun u _ => Finset.sum_congr rfl fun v _ => by rw [hs]; ring

/-- One more parent takes the square of the partial covariance, over the variance of the residual of the new parent, from the variance of the
residual. -/
theorem residual_step (hC : C.PosDef) {i : Fin n} (hl : l.Nodup) (hi : i ∉ l) (hj : j ∉ l) (hij : i ≠ j) {e : Fin n → ℝ}
    (he : Residual C i (fun x => x ∈ l) e) :
    0 < C.mulVec e i ∧ minor C (insert j (i :: l).toFinset) / minor C (i :: l).toFinset =
      minor C (insert j l.toFinset) / minor C l.toFinset - C.mulVec e j ^ 2 / C.mulVec e i := by
  have hs := LocalScore.posDef_symm hC
  obtain ⟨c, hc, hcm⟩ := exists_residual hC hl hj
  have hv : 0 < C.mulVec e i := by
    rw [← covar_residual he he.2.2]
    have h0 : e ≠ 0 := fun q => by have := he.1; rw [q] at this; exact zero_ne_one this
    have := (posDef_iff.1 hC).2 e h0
    have q : covar C e e = dotProduct e (C.mulVec e) := by
      unfold covar dotProduct mulVec dotProduct
      exact Finset.sum_congr rfl fun u _ => by rw [Finset.mul_sum]; exact Finset.sum_congr rfl fun v _ => by ring
    rwa [q]
  have hk : C.mulVec c i = C.mulVec e j := by
    rw [← covar_residual he hc.2.2, ← covar_residual hc he.2.2, covar_comm hs]
  have hej : e j = 0 := by
    by_contra q
    exact (he.2.1 j q).elim (fun q => hij q.symm) hj
  set k := C.mulVec e j / C.mulVec e i with hkd
  have hr : Residual C j (fun x => x ∈ i :: l) (c - k • e) := by
    refine ⟨by rw [Pi.sub_apply, Pi.smul_apply, hc.1, hej, smul_zero, sub_zero], fun v hv' => ?_, fun z hz => ?_⟩
    · by_contra hn
      push Not at hn
      rw [List.mem_cons] at hn
      have h1 : c v = 0 := by
        by_contra q
        exact (hc.2.1 v q).elim hn.1 (fun q => hn.2 (Or.inr q))
      have h2 : e v = 0 := by
        by_contra q
        exact (he.2.1 v q).elim (fun q => hn.2 (Or.inl q)) (fun q => hn.2 (Or.inr q))
      exact hv' (by rw [Pi.sub_apply, Pi.smul_apply, h1, h2, smul_zero, sub_zero])
    · rw [mulVec_sub, mulVec_smul, Pi.sub_apply, Pi.smul_apply, smul_eq_mul]
      rcases List.mem_cons.1 hz with rfl | hz
      · rw [hk, hkd, div_mul_cancel₀ _ hv.ne', sub_self]
      · rw [hc.2.2 z hz, he.2.2 z hz, mul_zero, sub_zero]
  have hl' : (i :: l).Nodup := List.nodup_cons.2 ⟨hi, hl⟩
  have hj' : j ∉ i :: l := fun q => (List.mem_cons.1 q).elim (fun q => hij q.symm) hj
  refine ⟨hv, ?_⟩
  rw [minor_residual hC hl' hj' hr, hcm, mul_div_cancel_left₀ _ (minor_pos hC _).ne', mul_div_cancel_left₀ _ (minor_pos hC _).ne', mulVec_sub,
    mulVec_smul, Pi.sub_apply, Pi.smul_apply, smul_eq_mul, hkd]
  ring

/-- A gain of `d` for each sample outweighs the penalty in the end. -/
theorem gain_beats_penalty {d lambda : ℝ} (hd : 0 < d) (hl : 0 < lambda) : ∃ N0 : Nat, ∀ N : Nat, N0 ≤ N → Real.log N * lambda < N * d := by
  have h := (Real.isLittleO_log_id_atTop.def (show (0 : ℝ) < d / (2 * lambda) by positivity))
  have h2 := (tendsto_natCast_atTop_atTop (R := ℝ)).eventually h
  obtain ⟨N0, hN0⟩ := Filter.eventually_atTop.1 h2
  refine ⟨max N0 1, fun N hN => ?_⟩
  have h3 := hN0 N (le_trans (le_max_left _ _) hN)
  have hN1 : (1 : ℝ) ≤ N := by exact_mod_cast le_trans (le_max_right _ _) hN
  simp only [id, Real.norm_eq_abs, abs_of_nonneg (Real.log_nonneg hN1), abs_of_nonneg (by linarith : (0 : ℝ) ≤ (N : ℝ))] at h3
  have h4 : Real.log N * lambda ≤ d / (2 * lambda) * N * lambda := mul_le_mul_of_nonneg_right h3 hl.le
  have h5 : d / (2 * lambda) * N * lambda = N * d / 2 := by field_simp
  have h6 : 0 < (N : ℝ) * d := by positivity
  linarith

end Cdmir.LocalScore
