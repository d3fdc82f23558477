import Verif.Lemmas.FisherZ
import Verif.Lemmas.DSepMap
import Verif.Props.Tetrad

/-!
Properties C115-C118: the Fisher z-test.
-/

set_option linter.unusedSectionVars false

namespace Cdmir.Fisher
open Cdmir.Spec Matrix
variable {n N : ℕ}

/-! ### C115 -/

/-- **C115.** The result (or the exception) does not depend on which variable is named first nor on the order of the conditioning variables. -/
theorem c115_symm {corr : Matrix (Fin n) (Fin n) ℝ} (hc : corr.transpose = corr) (x y : ℤ) (z z' : List ℤ) (hz : z.Perm z') :
    fisherzFromCorr corr N x y (some z) = fisherzFromCorr corr N y x (some z') ∧
    fisherzFromCorr corr N x y (some z) = fisherzFromCorr corr N x y (some z') ∧
    fisherzFromCorr corr N x y (some []) = fisherzFromCorr corr N x y none :=
  ⟨cal_symm hc ⟨Or.inr ⟨rfl, rfl⟩, hz⟩, cal_symm hc ⟨Or.inl ⟨rfl, rfl⟩, hz⟩, rfl⟩

theorem corrcoef_symm (data : Fin n → Fin N → ℝ) : (corrcoef data).transpose = corrcoef data := by
  ext i j
  simp only [corrcoef, transpose_apply, of_apply]
  rw [Tetrad.cov_comm, mul_comm]

/-- **C115.** A `FisherZ` object answers after any history of calls as it would without its cache. -/
theorem c115_history {α : Type} [DecidableEq α] {names : List α} (data : Fin names.length → Fin N → ℝ) (hist : List (Call α)) (x y : α)
    (z : Option (List α)) :
    (citTest (fun _ => true) (fisherzFromCorr (corrcoef data) N) names
      (hist.foldl (Call.run (fun _ => true) (fisherzFromCorr (corrcoef data) N) names) []) x y z).map Prod.fst =
    uncached (fisherzFromCorr (corrcoef data) N) names x y z :=
  c34_cache_transparent (fun _ _ _ _ _ _ h => cal_symm (corrcoef_symm data) h) hist x y z

/-- **C115.** The order of the records and the units of measurement (positive factors and shifts) do not matter. -/
theorem c115_units (hN : N ≠ 0) (data : Fin n → Fin N → ℝ) (σ : Equiv.Perm (Fin N)) (a b : Fin n → ℝ) (ha : ∀ i, 0 < a i) :
    corrcoef (fun i r => a i * data i (σ r) + b i) = corrcoef data := by
  ext i j
  simp only [corrcoef, of_apply]
  rw [Tetrad.cov_affine hN (fun r => data i (σ r)) (fun r => data j (σ r)), Tetrad.cov_affine hN (fun r => data i (σ r)) (fun r => data i (σ r)),
    Tetrad.cov_affine hN (fun r => data j (σ r)) (fun r => data j (σ r)), Tetrad.cov_perm, Tetrad.cov_perm, Tetrad.cov_perm,
    Real.sqrt_mul (mul_self_nonneg _), Real.sqrt_mul (mul_self_nonneg _), Real.sqrt_mul_self (ha i).le, Real.sqrt_mul_self (ha j).le]
  have h1 := (ha i).ne'
  have h2 := (ha j).ne'
  rw [show a i * √(Tetrad.cov (data i) (data i)) * (a j * √(Tetrad.cov (data j) (data j))) =
    a i * a j * (√(Tetrad.cov (data i) (data i)) * √(Tetrad.cov (data j) (data j))) by ring, mul_div_mul_left _ _ (mul_ne_zero h1 h2)]

/-- **C115.** Reversing the sign of some variables leaves the p-value. -/
theorem c115_signs (corr : Matrix (Fin n) (Fin n) ℝ) (s : Fin n → ℝ) (hs : ∀ i, s i = 1 ∨ s i = -1) (x y : ℤ) (z : Option (List ℤ)) :
    (fisherzFromCorr (Matrix.of fun i j => s i * corr i j * s j) N x y z).map Prod.fst = (fisherzFromCorr corr N x y z).map Prod.fst := by
  rcases cal_cases corr N x y z with ⟨i, j, zs, h1, h2, h3⟩ | ⟨h, he⟩
  · rw [cal_ok h1 h2 h3, cal_ok h1 h2 h3]
    have h0 : ∀ p : Fin (zs.length + 2), s (var i j zs p) * s (var i j zs p) = 1 := fun p => by rcases hs (var i j zs p) with h | h <;> rw [h] <;> norm_num
    set f := var i j zs with hf
    have e : (Matrix.of fun i j => s i * corr i j * s j).submatrix f f =
        diagonal (fun p => s (f p)) * corr.submatrix f f * diagonal (fun p => s (f p)) := by
      ext p q; rw [mul_diagonal, diagonal_mul]; rfl
    have hD : diagonal (fun p => s (f p)) * diagonal (fun p => s (f p)) = (1 : Matrix (Fin (zs.length + 2)) (Fin (zs.length + 2)) ℝ) := by
      rw [diagonal_mul_diagonal, ← diagonal_one]; congr 1; ext p; exact h0 p
    have hdet : (diagonal (fun p => s (f p)) : Matrix (Fin (zs.length + 2)) (Fin (zs.length + 2)) ℝ).det *
        (diagonal (fun p => s (f p)) : Matrix (Fin (zs.length + 2)) (Fin (zs.length + 2)) ℝ).det = 1 := by
      rw [← det_mul, hD, det_one]
    have hinv : (diagonal (fun p => s (f p)) : Matrix (Fin (zs.length + 2)) (Fin (zs.length + 2)) ℝ)⁻¹ = diagonal (fun p => s (f p)) :=
      inv_eq_right_inv hD
    unfold fromSub
    simp only [← hf]
    rw [e]
    have hd : (diagonal (fun p => s (f p)) * corr.submatrix f f * diagonal (fun p => s (f p))).det = (corr.submatrix f f).det := by
      rw [det_mul, det_mul]
      linear_combination (corr.submatrix f f).det * hdet
    rw [hd]
    split_ifs with h
    · rfl
    · rw [Matrix.mul_inv_rev, Matrix.mul_inv_rev, hinv, ← mul_assoc]
      simp only [mul_diagonal, diagonal_mul]
      have e2 : s (f 0) * (corr.submatrix f f)⁻¹ 0 0 * s (f 0) * (s (f 1) * (corr.submatrix f f)⁻¹ 1 1 * s (f 1)) =
          (corr.submatrix f f)⁻¹ 0 0 * (corr.submatrix f f)⁻¹ 1 1 := by
        linear_combination ((corr.submatrix f f)⁻¹ 0 0 * (corr.submatrix f f)⁻¹ 1 1) * (s (f 1) * s (f 1) * h0 0 + h0 1)
      rw [e2]
      generalize (corr.submatrix f f)⁻¹ 0 0 * (corr.submatrix f f)⁻¹ 1 1 = B
      generalize (corr.submatrix f f)⁻¹ 0 1 = A
      have hab : absStat (statOf (s (f 0) * A * s (f 1)) B) = absStat (statOf A B) := by
        unfold statOf
        have hz : s (f 0) * A * s (f 1) = 0 ↔ A = 0 := by
          rcases hs (f 0) with h | h <;> rcases hs (f 1) with h' | h' <;> rw [h, h'] <;> simp
        simp only [hz]
        split_ifs
        · rfl
        · rfl
        · have : |(-(s (f 0) * A * s (f 1)) / √|B|)| = |(-A / √|B|)| := by
            rcases hs (f 0) with h | h <;> rcases hs (f 1) with h' | h' <;> rw [h, h'] <;> simp [abs_div]
          simp only [absStat, this]
      simp only [Except.map, pOf, hab]
  · rw [he]
    rcases cal_cases (Matrix.of fun i j => s i * corr i j * s j) N x y z with ⟨i, j, zs, h1, h2, h3⟩ | ⟨_, he'⟩
    · rw [h1, h2, h3] at h; simp at h
    · rw [he']

/-- **C115.** The function on columns answers as the object on the whole table. -/
theorem c115_columns (data : Fin n → Fin N → ℝ) (i j : Fin n) (zs : List (Fin n)) :
    fisherz (data i) (data j) (fun k => data (zs.get k)) =
      fisherzFromCorr (corrcoef data) N ((i : ℕ) : ℤ) ((j : ℕ) : ℤ) (some (zs.map fun k : Fin n => ((k : ℕ) : ℤ))) := by
  rw [cal_nat]
  unfold fisherz
  let l : List (Fin (zs.length + 2)) := (List.finRange zs.length).map fun k => k.succ.succ
  have hl : ((List.range zs.length).map fun k : ℕ => (k : ℤ) + 2).mapM (toIdx (zs.length + 2)) = .ok l := by
    rw [← mapM_toIdx_nat l]
    congr 1
    simp only [l, List.map_map]
    rw [← List.map_coe_finRange_eq_range, List.map_map]
    refine List.map_congr_left fun k _ => ?_
    simp
    ring
  have h0 : toIdx (zs.length + 2) 0 = .ok 0 := toIdx_nat (0 : Fin (zs.length + 2))
  have h1 : toIdx (zs.length + 2) 1 = .ok 1 := toIdx_nat (1 : Fin (zs.length + 2))
  rw [cal_ok h0 h1 (z := some _) hl]
  have hlen : l.length = zs.length := by simp [l]
  let P : Fin (zs.length + 2) → Fin n → Prop := fun p q => Matrix.vecCons (data i) (Matrix.vecCons (data j) (fun k => data (zs.get k))) p = data q
  have hv := var_lift2 (zs := l) (zs' := zs) (P := P) (finCongr hlen) (i := 0) (j := 1) (i' := i) (j' := j) rfl rfl (fun p => by
    simp [P, l])
  refine fromSub_equiv hlen (lift2 (finCongr hlen)) (lift2_zero _) (lift2_one _) fun p q => ?_
  simp only [corrcoef, of_apply]
  rw [hv p, hv q]

/-! ### C116 -/

section
variable {corr : Matrix (Fin n) (Fin n) ℝ} {i j : Fin n} {zs : List (Fin n)}

/-- Residuals of both variables exist. -/
theorem residual_exists {V : Type} [Fintype V] [DecidableEq V] {m : ℕ} {C : Matrix V V ℝ} {f : Fin (m + 2) → V} {x y : V} {Z : V → Prop}
    (hf : Picks f x y Z) (hS : (C.submatrix f f).PosDef) : ∃ a b, Residual C x Z a ∧ Residual C y Z b := by
  set S := C.submatrix f f with hSd
  have hdet := posDef_det hS
  have hlt := inv_lt hS
  have hsym := inv_symm hS 1 0
  set D := S⁻¹ 0 0 * S⁻¹ 1 1 - S⁻¹ 0 1 ^ 2 with hD
  have hD0 : D ≠ 0 := by linarith
  classical
  have key : ∀ α β : ℝ, ∃ c : V → ℝ, (∀ p, c (f p) = α * S⁻¹ p 0 + β * S⁻¹ p 1) ∧ (∀ v, c v ≠ 0 → ∃ p, f p = v) ∧ ∀ z, Z z → C.mulVec c z = 0 := by
    intro α β
    let c : V → ℝ := fun v => if h : ∃ p, f p = v then α * S⁻¹ h.choose 0 + β * S⁻¹ h.choose 1 else 0
    have hcf : ∀ p, c (f p) = α * S⁻¹ p 0 + β * S⁻¹ p 1 := by
      intro p
      have h : ∃ q, f q = f p := ⟨p, rfl⟩
      simp only [c, dif_pos h]
      rw [hf.inj h.choose_spec]
    have hc : ∀ v, c v ≠ 0 → ∃ p, f p = v := by
      intro v hv
      by_contra h
      exact hv (by simp only [c, dif_neg h])
    refine ⟨c, hcf, hc, fun z hz => ?_⟩
    obtain ⟨q, h0, h1, rfl⟩ := (hf.rest z).1 hz
    rw [← sub_mulVec hf.inj hc q, ← hSd]
    have e : (fun p => c (f p)) = S⁻¹.mulVec (Pi.single 0 α + Pi.single 1 β) := by
      ext p
      rw [hcf, mulVec_add, Pi.add_apply, mulVec_single, mulVec_single]
      simp only [Pi.smul_apply, col_apply, MulOpposite.smul_eq_mul_unop, MulOpposite.unop_op]
      ring
    rw [e, mulVec_mulVec, mul_nonsing_inv _ (isUnit_iff_ne_zero.2 hdet), one_mulVec, Pi.add_apply, Pi.single_eq_of_ne h0, Pi.single_eq_of_ne h1, add_zero]
  obtain ⟨a, a1, a2, a3⟩ := key (S⁻¹ 1 1 / D) (-S⁻¹ 1 0 / D)
  obtain ⟨b, b1, b2, b3⟩ := key (-S⁻¹ 0 1 / D) (S⁻¹ 0 0 / D)
  refine ⟨a, b, ⟨?_, fun v hv => ?_, a3⟩, ⟨?_, fun v hv => ?_, b3⟩⟩
  · rw [← hf.fst, a1, hsym]; field_simp; rw [hD]; ring
  · obtain ⟨p, rfl⟩ := a2 v hv
    by_cases h0 : p = 0
    · left; rw [h0, hf.fst]
    · right
      refine (hf.rest _).2 ⟨p, h0, fun h1 => hv ?_, rfl⟩
      rw [a1, h1, hsym]; field_simp; ring
  · rw [← hf.snd, b1, hsym]; field_simp; rw [hD]; ring
  · obtain ⟨p, rfl⟩ := b2 v hv
    by_cases h1 : p = 1
    · left; rw [h1, hf.snd]
    · right
      refine (hf.rest _).2 ⟨p, fun h0 => hv ?_, h1, rfl⟩
      rw [b1, h0]; field_simp; ring

/-- **C116.** For distinct variables with a positive definite correlation matrix there are residuals of the two variables after regression on the
conditioning variables, and the statistic is the correlation of any such residuals. -/
theorem c116_partial_correlation (hd : (i :: j :: zs).Nodup) (hS : (corr.submatrix (i :: j :: zs).get (i :: j :: zs).get).PosDef) :
    (∃ a b, Residual corr i (fun w => w ∈ zs) a ∧ Residual corr j (fun w => w ∈ zs) b) ∧
    ∀ a b, Residual corr i (fun w => w ∈ zs) a → Residual corr j (fun w => w ∈ zs) b →
      ∃ p, fisherzFromCorr corr N ((i : ℕ) : ℤ) ((j : ℕ) : ℤ) (some (zs.map fun k : Fin n => ((k : ℕ) : ℤ))) =
        .ok (p, .fin (covar corr a b / Real.sqrt (covar corr a a * covar corr b b))) := by
  have hf := picks_var hd
  have hS' : (corr.submatrix (var i j zs) (var i j zs)).PosDef := hS
  refine ⟨residual_exists hf hS', fun a b ha hb => ?_⟩
  obtain ⟨a1, a2⟩ := residual_fst hf (posDef_det hS') ha
  obtain ⟨b1, b2⟩ := residual_snd hf (posDef_det hS') hb
  rw [cal_nat, fromSub_posDef hS']
  refine ⟨pOf N zs.length (.fin (-(corr.submatrix (var i j zs) (var i j zs))⁻¹ 0 1 /
        Real.sqrt ((corr.submatrix (var i j zs) (var i j zs))⁻¹ 0 0 * (corr.submatrix (var i j zs) (var i j zs))⁻¹ 1 1))), ?_⟩
  congr 3
  rw [covar_residual ha hb.2.2, covar_residual ha ha.2.2, covar_residual hb hb.2.2]
  rw [inv_symm hS' 1 0] at a2 b2
  have h0 := PosDef.diag_pos hS'.inv (i := 0)
  have h1 := PosDef.diag_pos hS'.inv (i := 1)
  have hlt := inv_lt hS'
  set K00 := (corr.submatrix (var i j zs) (var i j zs))⁻¹ 0 0
  set K01 := (corr.submatrix (var i j zs) (var i j zs))⁻¹ 0 1
  set K11 := (corr.submatrix (var i j zs) (var i j zs))⁻¹ 1 1
  set p := corr.mulVec a i
  set q := corr.mulVec b j
  set r := corr.mulVec b i
  have hD : 0 < K00 * K11 - K01 ^ 2 := by linarith
  have er : r = -K01 / (K00 * K11 - K01 ^ 2) := by
    rw [eq_div_iff hD.ne']; linear_combination K11 * b1 - K01 * b2
  have ep : p = K11 / (K00 * K11 - K01 ^ 2) := by
    rw [eq_div_iff hD.ne']; linear_combination K11 * a1 - K01 * a2
  have eq : q = K00 / (K00 * K11 - K01 ^ 2) := by
    rw [eq_div_iff hD.ne']; linear_combination K00 * b2 - K01 * b1
  rw [er, ep, eq, div_mul_div_comm, Real.sqrt_div (mul_pos h1 h0).le, Real.sqrt_mul_self hD.le, div_div_div_cancel_right₀ hD.ne', mul_comm K11]

/-- **C116.** The statistic lies strictly between -1 and 1; the p-value is NaN if there are fewer than `|z| + 3` records, and otherwise Fisher's
transform gives a number in `(0, 1]` that is one exactly if the statistic is zero or there are `|z| + 3` records. -/
theorem c116_range (hd : (i :: j :: zs).Nodup) (hS : (corr.submatrix (i :: j :: zs).get (i :: j :: zs).get).PosDef) :
    ∃ p r, fisherzFromCorr corr N ((i : ℕ) : ℤ) ((j : ℕ) : ℤ) (some (zs.map fun k : Fin n => ((k : ℕ) : ℤ))) = .ok (p, .fin r) ∧ |r| < 1 ∧
      (N < zs.length + 3 → p = .nan) ∧
      (zs.length + 3 ≤ N → ∃ q, p = .val q ∧ 0 < q ∧ q ≤ 1 ∧ (q = 1 ↔ r = 0 ∨ N = zs.length + 3) ∧
        (|r| ≤ 9999999 / 10000000 → q = 2 * (1 - normCdf (Real.sqrt (N - zs.length - 3) * (1 / 2 * Real.log ((1 + |r|) / (1 - |r|))))))) := by
  have hf := picks_var hd
  have hS' : (corr.submatrix (var i j zs) (var i j zs)).PosDef := hS
  rw [cal_nat, fromSub_posDef hS']
  have h0 := PosDef.diag_pos hS'.inv (i := 0)
  have h1 := PosDef.diag_pos hS'.inv (i := 1)
  have hlt := inv_lt hS'
  set K00 := (corr.submatrix (var i j zs) (var i j zs))⁻¹ 0 0
  set K01 := (corr.submatrix (var i j zs) (var i j zs))⁻¹ 0 1
  set K11 := (corr.submatrix (var i j zs) (var i j zs))⁻¹ 1 1
  refine ⟨_, _, rfl, ?_, fun h => ?_, fun h => ?_⟩
  · have hs := Real.sqrt_pos.2 (mul_pos h0 h1)
    rw [abs_div, abs_neg, abs_of_pos hs, div_lt_one hs]
    exact Real.lt_sqrt_of_sq_lt (by rwa [sq_abs])
  · unfold pOf; rw [if_pos h]
  · generalize -K01 / Real.sqrt (K00 * K11) = r
    obtain ⟨g0, g1, g2⟩ := absStat_fin r
    have hN : (0 : ℝ) ≤ (N : ℝ) - zs.length - 3 := by
      have : ((zs.length + 3 : ℕ) : ℝ) ≤ N := by exact_mod_cast h
      push_cast at this; linarith
    refine ⟨_, pOf_val h r, ?_, ?_, ?_, fun hr => ?_⟩
    · have := normCdf_lt_one (Real.sqrt ((N : ℝ) - zs.length - 3) * zOf (absStat (.fin r)))
      linarith
    · have := normCdf_strictMono.monotone (mul_nonneg (Real.sqrt_nonneg ((N : ℝ) - zs.length - 3)) (zOf_nonneg g0 g1))
      rw [normCdf_zero] at this
      linarith
    · have e1 : 2 * (1 - normCdf (Real.sqrt ((N : ℝ) - zs.length - 3) * zOf (absStat (.fin r)))) = 1 ↔
          normCdf (Real.sqrt ((N : ℝ) - zs.length - 3) * zOf (absStat (.fin r))) = normCdf 0 := by
        rw [normCdf_zero]; constructor <;> intro h <;> linarith
      rw [e1, normCdf_strictMono.injective.eq_iff, mul_eq_zero, Real.sqrt_eq_zero hN, or_comm]
      refine or_congr ?_ ?_
      · rw [← g2]
        constructor
        · intro hz
          by_contra hne
          exact (zOf_pos (lt_of_le_of_ne g0 (Ne.symm hne)) g1).ne' hz
        · intro hz; rw [hz, zOf_zero]
      · constructor
        · intro hz
          have : (N : ℝ) = ((zs.length + 3 : ℕ) : ℝ) := by push_cast; linarith
          exact_mod_cast this
        · intro hz; rw [hz]; push_cast; ring
    · rw [zOf_eq g1]
      have : absStat (.fin r) = |r| := min_eq_right hr
      rw [this]

/-- **C116.** With the same number of records and of conditioning variables a larger correlation never gives a larger p-value. -/
theorem c116_monotone {n' : ℕ} {corr' : Matrix (Fin n') (Fin n') ℝ} {x y x' y' : ℤ} {z z' : List ℤ} {q q' r r' : ℝ} (hz : z.length = z'.length)
    (h : fisherzFromCorr corr N x y (some z) = .ok (.val q, .fin r)) (h' : fisherzFromCorr corr' N x' y' (some z') = .ok (.val q', .fin r'))
    (hr : |r| ≤ |r'|) : q' ≤ q := by
  have key : ∀ {n : ℕ} {corr : Matrix (Fin n) (Fin n) ℝ} {x y : ℤ} {z : List ℤ} {q r : ℝ},
      fisherzFromCorr corr N x y (some z) = .ok (.val q, .fin r) →
      z.length + 3 ≤ N ∧ q = 2 * (1 - normCdf (Real.sqrt ((N : ℝ) - z.length - 3) * zOf (absStat (.fin r)))) := by
    intro n corr x y z q r h
    rcases cal_cases corr N x y (some z) with ⟨i, j, zs, h1, h2, h3⟩ | ⟨_, he⟩
    · rw [cal_ok h1 h2 h3] at h
      have hl : zs.length = z.length := by
        have : ∀ (l : List ℤ) (zs : List (Fin n)), l.mapM (toIdx n) = .ok zs → zs.length = l.length := by
          intro l
          induction l with
          | nil => intro zs h; cases h; rfl
          | cons a l ih =>
            intro zs h
            rw [List.mapM_cons] at h
            rcases toIdx_cases n a with ⟨i, hi⟩ | hi <;> rw [hi] at h
            · rcases mapM_toIdx_cases n l with ⟨w, hw⟩ | hw <;> rw [hw] at h
              · cases h; simp [ih w hw]
              · cases h
            · cases h
        exact this _ _ h3
      unfold fromSub at h
      simp only at h
      split_ifs at h with hdet
      simp only [Except.ok.injEq, Prod.mk.injEq] at h
      obtain ⟨h4, h5⟩ := h
      rw [h5, hl] at h4
      by_cases hN : z.length + 3 ≤ N
      · rw [pOf_val hN] at h4
        exact ⟨hN, (PV.val.inj h4).symm⟩
      · unfold pOf at h4
        rw [if_pos (by omega)] at h4
        cases h4
    · rw [he] at h; cases h
  obtain ⟨_, e⟩ := key h
  obtain ⟨_, e'⟩ := key h'
  rw [e, e', ← hz]
  have hle : absStat (.fin r) ≤ absStat (.fin r') := min_le_min le_rfl hr
  have := normCdf_strictMono.monotone (mul_le_mul_of_nonneg_left (zOf_mono (absStat_fin r).1 hle (absStat_fin r').2.1)
    (Real.sqrt_nonneg ((N : ℝ) - z.length - 3)))
  linarith

/-- **C116.** A variable named twice makes the matrix singular: the call raises. -/
theorem c116_repeated (hd : ¬ (i :: j :: zs).Nodup) :
    fisherzFromCorr corr N ((i : ℕ) : ℤ) ((j : ℕ) : ℤ) (some (zs.map fun k : Fin n => ((k : ℕ) : ℤ))) = .error .exception := by
  rw [cal_nat]
  have : ¬ Function.Injective (var i j zs) := fun h => hd (List.nodup_iff_injective_get.2 h)
  obtain ⟨p, q, e, hne⟩ := Function.not_injective_iff.1 this
  unfold fromSub
  simp only
  rw [if_pos (det_zero_of_row_eq hne (by ext k; simp only [submatrix_apply, e]))]

end

/-! ### C117 -/

section
variable {R : Fin n → Fin n → Prop} {C : Matrix (Fin n) (Fin n) ℝ} {i j : Fin n} {zs : List (Fin n)}

theorem corrOf_posDef (hC : C.PosDef) : (corrOf C).PosDef := by
  rw [corrOf_eq]; exact posDef_rescale hC (sqrt_diag_ne hC)

/-- **C117.** For the correlations of variables with a positive definite covariance matrix the statistic is zero exactly if the two variables are
uncorrelated given the conditioning variables. -/
theorem c117_zero (hC : C.PosDef) (hd : (i :: j :: zs).Nodup) :
    ∃ p r, fisherzFromCorr (corrOf C) N ((i : ℕ) : ℤ) ((j : ℕ) : ℤ) (some (zs.map fun k : Fin n => ((k : ℕ) : ℤ))) = .ok (p, .fin r) ∧
      (r = 0 ↔ PartialUncorr C i j (fun w => w ∈ zs)) := by
  have hf := picks_var hd
  have hS : ((corrOf C).submatrix (var i j zs) (var i j zs)).PosDef := (corrOf_posDef hC).submatrix hf.inj
  rw [cal_nat, fromSub_posDef hS]
  refine ⟨_, _, rfl, ?_⟩
  have h0 := PosDef.diag_pos hS.inv (i := 0)
  have h1 := PosDef.diag_pos hS.inv (i := 1)
  have hs := Real.sqrt_pos.2 (mul_pos h0 h1)
  rw [div_eq_zero_iff, neg_eq_zero, or_iff_left hs.ne']
  have hiff : PartialUncorr (corrOf C) i j (fun w => w ∈ zs) ↔ PartialUncorr C i j (fun w => w ∈ zs) := by
    rw [corrOf_eq]; exact partialUncorr_rescale (sqrt_diag_ne hC)
  rw [← hiff]
  constructor
  · intro h
    exact residual_of_inv hf hS (by rw [inv_symm hS 1 0]; exact h)
  · rintro ⟨c, hc, hy⟩
    obtain ⟨k0, k1⟩ := residual_fst hf (posDef_det hS) hc
    rw [hy, mul_zero, add_zero] at k0 k1
    rw [inv_symm hS 1 0] at k1
    rcases mul_eq_zero.1 k1 with h | h
    · exact h
    · rw [h, mul_zero] at k0; norm_num at k0

/-- **C117.** In a linear model over a DAG d-separated variables have statistic zero and, with enough records, p-value one. -/
theorem c117_dsep (ac : Acyclic R) (hC : LinearModel R C) (hd : (i :: j :: zs).Nodup) (hs : DSep R i j (fun w => w ∈ zs)) :
    ∃ p, fisherzFromCorr (corrOf C) N ((i : ℕ) : ℤ) ((j : ℕ) : ℤ) (some (zs.map fun k : Fin n => ((k : ℕ) : ℤ))) = .ok (p, .fin 0) ∧
      (zs.length + 3 ≤ N → p = .val 1) := by
  have hP := hC.posDef ac
  obtain ⟨p, r, h, hz⟩ := c117_zero (N := N) hP hd
  have hx : i ∉ zs := fun hi => (List.nodup_cons.1 hd).1 (List.mem_cons_of_mem _ hi)
  have hr := hz.2 (markov_residual ac hC hx hs)
  subst hr
  refine ⟨p, h, fun hN => ?_⟩
  have hf := picks_var hd
  obtain ⟨p', r', h', _, _, hq⟩ := c116_range (N := N) hd ((corrOf_posDef hP).submatrix hf.inj)
  rw [h] at h'
  simp only [Except.ok.injEq, Prod.mk.injEq, Stat.fin.injEq] at h'
  obtain ⟨rfl, rfl⟩ := h'
  obtain ⟨q, e, _, _, hiff, _⟩ := hq hN
  rw [e, hiff.2 (Or.inl rfl)]

/-- **C117.** In a faithful linear model over a DAG the statistic is zero exactly for d-separated variables. -/
theorem c117_faithful (ac : Acyclic R) (hC : LinearModel R C) (hF : Faithful R C) (hd : (i :: j :: zs).Nodup) :
    ∃ p r, fisherzFromCorr (corrOf C) N ((i : ℕ) : ℤ) ((j : ℕ) : ℤ) (some (zs.map fun k : Fin n => ((k : ℕ) : ℤ))) = .ok (p, .fin r) ∧
      (r = 0 ↔ DSep R i j (fun w => w ∈ zs)) := by
  obtain ⟨p, r, h, hz⟩ := c117_zero (N := N) (hC.posDef ac) hd
  have hf := picks_var hd
  exact ⟨p, r, h, hz.trans ⟨hF i j _ hf.ne hf.fst_notMem hf.snd_notMem, markov_residual ac hC hf.fst_notMem⟩⟩

end

end Cdmir.Fisher
