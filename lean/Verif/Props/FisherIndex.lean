import Verif.Props.FisherZ
import Mathlib.LinearAlgebra.Matrix.Notation
import Mathlib.LinearAlgebra.Matrix.Determinant.Basic

/-! C115, C116: ids counted from the end, ids that do not exist, and statistics that are no numbers. -/

namespace Cdmir.Fisher
open Matrix

variable {n N : ℕ}

theorem toIdx_neg {i : ℤ} (h0 : 0 ≤ i) (h1 : i < n) : toIdx n (i - n) = toIdx n i := by
  unfold toIdx
  have e1 : i - (n : ℤ) < 0 := by omega
  have e2 : ¬ i < 0 := by omega
  simp only [if_pos e1, if_neg e2, sub_add_cancel]

theorem toIdx_out {i : ℤ} (h : i < -n ∨ (n : ℤ) ≤ i) : toIdx n i = .error .index := by
  unfold toIdx
  dsimp only
  rw [dif_neg]
  rintro ⟨h1, h2⟩
  split_ifs at h1 h2 <;> omega

theorem mapM_toIdx_len : ∀ (l : List ℤ) (zs : List (Fin n)), l.mapM (toIdx n) = .ok zs → zs.length = l.length := by
  intro l
  induction l with
  | nil => intro zs h; cases h; rfl
  | cons a l ih =>
    intro zs h
    rw [List.mapM_cons] at h
    rcases toIdx_cases n a with ⟨i, hi⟩ | hi <;> rw [hi] at h
    · rcases mapM_toIdx_cases n l with ⟨w, hw⟩ | hw <;> rw [hw] at h
      · cases h; simp [ih w hw]
      · cases h
    · cases h

/-- **C115.** An id may be counted from the end, and an id beyond either end raises `IndexError` whatever the matrix is. -/
theorem c115_index (corr : Matrix (Fin n) (Fin n) ℝ) (x y : ℤ) (z : List ℤ) :
    (0 ≤ x → x < n → fisherzFromCorr corr N (x - n) y (some z) = fisherzFromCorr corr N x y (some z)) ∧
    (0 ≤ y → y < n → fisherzFromCorr corr N x (y - n) (some z) = fisherzFromCorr corr N x y (some z)) ∧
    ((∀ k ∈ z, 0 ≤ k ∧ k < n) → fisherzFromCorr corr N x y (some (z.map fun k => k - n)) = fisherzFromCorr corr N x y (some z)) ∧
    ((∃ k ∈ x :: y :: z, k < -n ∨ (n : ℤ) ≤ k) → fisherzFromCorr corr N x y (some z) = .error .index) := by
  refine ⟨fun h0 h1 => ?_, fun h0 h1 => ?_, fun h => ?_, ?_⟩
  · unfold fisherzFromCorr
    rw [toIdx_neg h0 h1]
  · unfold fisherzFromCorr
    rw [toIdx_neg h0 h1]
  · have : (z.map fun k => k - (n : ℤ)).mapM (toIdx n) = z.mapM (toIdx n) := by
      induction z with
      | nil => rfl
      | cons a l ih =>
        rw [List.map_cons, List.mapM_cons, List.mapM_cons, ih fun k hk => h k (List.mem_cons_of_mem _ hk),
          toIdx_neg (h a List.mem_cons_self).1 (h a List.mem_cons_self).2]
    unfold fisherzFromCorr
    rw [Option.getD_some, Option.getD_some, this]
  · rintro ⟨k, hk, hout⟩
    have ho := toIdx_out hout
    rcases cal_cases corr N x y (some z) with ⟨i, j, zs, h1, h2, h3⟩ | ⟨_, he⟩
    · exfalso
      rcases List.mem_cons.1 hk with rfl | hk
      · rw [ho] at h1; cases h1
      rcases List.mem_cons.1 hk with rfl | hk
      · rw [ho] at h2; cases h2
      have : ∀ (l : List ℤ), k ∈ l → ∀ zs : List (Fin n), l.mapM (toIdx n) ≠ .ok zs := by
        intro l
        induction l with
        | nil => intro h; cases h
        | cons a l ih =>
          intro hm zs hc
          rw [List.mapM_cons] at hc
          rcases List.mem_cons.1 hm with rfl | hm
          · rw [ho] at hc; cases hc
          · rcases toIdx_cases n a with ⟨i, hi⟩ | hi <;> rw [hi] at hc
            · rcases hw : l.mapM (toIdx n) with e | w
              · rw [hw] at hc; cases hc
              · exact ih hm w hw
            · cases hc
      exact this z hk zs h3
    · exact he

/-- **C116.** A statistic that is no number (a division by zero) is treated as the correlation 0.9999999: the p-value is that of Fisher's
transform there, so an undefined correlation counts as the strongest dependence. -/
theorem c116_undefined {corr : Matrix (Fin n) (Fin n) ℝ} {x y : ℤ} {z : List ℤ} {p : PV} {s : Stat}
    (h : fisherzFromCorr corr N x y (some z) = .ok (p, s)) (hs : ∀ r, s ≠ .fin r) (hN : z.length + 3 ≤ N) :
    p = .val (2 * (1 - normCdf (Real.sqrt ((N : ℝ) - z.length - 3) * (1 / 2 * Real.log 19999999)))) ∧
      ∀ {x' y' : ℤ} {z' : List ℤ} {q' : ℝ} {s' : Stat}, z'.length = z.length → fisherzFromCorr corr N x' y' (some z') = .ok (.val q', s') →
        ∃ q, p = .val q ∧ q ≤ q' := by
  have pv : ∀ s : Stat, ∃ a, absStat s = a ∧ 0 ≤ a ∧ a ≤ 9999999 / 10000000 := by
    intro s
    cases s with
    | fin r => exact ⟨_, rfl, le_min (by norm_num) (abs_nonneg _), min_le_left _ _⟩
    | inf b => exact ⟨9999999 / 10000000, rfl, by norm_num, le_rfl⟩
    | nan => exact ⟨9999999 / 10000000, rfl, by norm_num, le_rfl⟩
  have key : ∀ {x y : ℤ} {z : List ℤ} {p : PV} {s : Stat}, z.length + 3 ≤ N → fisherzFromCorr corr N x y (some z) = .ok (p, s) →
      p = .val (2 * (1 - normCdf (Real.sqrt ((N : ℝ) - z.length - 3) * zOf (absStat s)))) := by
    intro x y z p s hN h
    rcases cal_cases corr N x y (some z) with ⟨i, j, zs, h1, h2, h3⟩ | ⟨_, he⟩
    · rw [cal_ok h1 h2 h3] at h
      have hl := mapM_toIdx_len _ _ h3
      rw [Option.getD_some] at hl
      unfold fromSub at h
      simp only at h
      split_ifs at h with hdet
      simp only [Except.ok.injEq, Prod.mk.injEq] at h
      obtain ⟨h4, h5⟩ := h
      rw [h5, hl] at h4
      rw [← h4]
      obtain ⟨a, ha, a0, a1⟩ := pv s
      unfold pOf
      have hz := zOf_nonneg a0 (lt_of_le_of_lt a1 (by norm_num))
      rw [if_neg (by omega), ha, abs_of_nonneg hz, abs_of_nonneg (mul_nonneg (Real.sqrt_nonneg _) hz)]
    · rw [he] at h; cases h
  have ha : absStat s = 9999999 / 10000000 := by
    cases s with
    | fin r => exact absurd rfl (hs r)
    | inf b => rfl
    | nan => rfl
  have hp := key hN h
  refine ⟨?_, fun {x' y' z' q' s'} hl h' => ⟨_, hp, ?_⟩⟩
  · rw [hp, ha, zOf]
    norm_num
  · have hq := key (by omega) h'
    injection hq with hq
    rw [hq, ha, hl]
    obtain ⟨a, e, a0, a1⟩ := pv s'
    rw [e]
    have hz : zOf a ≤ zOf (9999999 / 10000000) := by
      unfold zOf
      have hd : 2 * a / (1 - a) ≤ 2 * (9999999 / 10000000) / (1 - 9999999 / 10000000) := by
        rw [div_le_div_iff₀ (by linarith) (by norm_num)]
        nlinarith
      have h0 : 0 ≤ 2 * a / (1 - a) := div_nonneg (by linarith) (by linarith)
      have := Real.log_le_log (by linarith : (0 : ℝ) < 1 + 2 * a / (1 - a)) (by linarith : 1 + 2 * a / (1 - a) ≤ 1 + 2 * (9999999 / 10000000) / (1 - 9999999 / 10000000))
      linarith
    have := normCdf_strictMono.monotone (mul_le_mul_of_nonneg_left hz (Real.sqrt_nonneg ((N : ℝ) - z.length - 3)))
    linarith

/-- A matrix with zeros on its diagonal: its inverse has zeros there too, and the statistic is infinite. -/
example : ∃ p, fisherzFromCorr (!![0, 1; 1, 0] : Matrix (Fin 2) (Fin 2) ℝ) 10 0 1 (some []) = .ok (p, .inf false) := by
  have h0 : toIdx 2 0 = .ok 0 := toIdx_nat (0 : Fin 2)
  have h1 : toIdx 2 1 = .ok 1 := toIdx_nat (1 : Fin 2)
  rw [cal_ok h0 h1 (zs := []) rfl]
  have hs : (!![0, 1; 1, 0] : Matrix (Fin 2) (Fin 2) ℝ).submatrix (var 0 1 []) (var 0 1 []) = !![0, 1; 1, 0] := by
    ext p q
    fin_cases p <;> fin_cases q <;> rfl
  have hi : (!![0, 1; 1, 0] : Matrix (Fin 2) (Fin 2) ℝ)⁻¹ = !![0, 1; 1, 0] := by
    refine Matrix.inv_eq_left_inv ?_
    ext p q
    fin_cases p <;> fin_cases q <;> simp [Matrix.mul_apply, Fin.sum_univ_two]
  unfold fromSub
  simp only [List.length_nil] at hs ⊢
  have hdet : ((!![0, 1; 1, 0] : Matrix (Fin 2) (Fin 2) ℝ).submatrix (var 0 1 []) (var 0 1 [])).det ≠ 0 := by
    rw [hs, Matrix.det_fin_two]; norm_num
  rw [if_neg hdet, hs, hi]
  have hst : statOf ((!![0, 1; 1, 0] : Matrix (Fin 2) (Fin 2) ℝ) 0 1) ((!![0, 1; 1, 0] : Matrix (Fin 2) (Fin 2) ℝ) 0 0 *
      (!![0, 1; 1, 0] : Matrix (Fin 2) (Fin 2) ℝ) 1 1) = .inf false := by norm_num [statOf]
  rw [hst]
  exact ⟨_, rfl⟩

end Cdmir.Fisher
