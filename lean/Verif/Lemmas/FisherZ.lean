import Verif.Lemmas.NormCdf
import Verif.Lemmas.PartialCorr
import Verif.Props.Indep

/-! Lemmas about the Fisher z-test. -/

set_option linter.unusedSectionVars false

namespace Cdmir.Fisher
open Cdmir.Spec Matrix
variable {n n' : ℕ}

theorem toIdx_nat (i : Fin n) : toIdx n ((i : ℕ) : ℤ) = .ok i := by
  unfold toIdx
  have h : ¬ (((i : ℕ) : ℤ) < 0) := by omega
  simp only [if_neg h]
  rw [dif_pos ⟨by omega, by simp⟩]
  congr 1

theorem toIdx_cases (n : ℕ) (x : ℤ) : (∃ i, toIdx n x = .ok i) ∨ toIdx n x = .error .index := by
  unfold toIdx
  simp only
  split_ifs with h1 h2 h2
  all_goals first | exact Or.inl ⟨_, rfl⟩ | exact Or.inr rfl

theorem mapM_toIdx_nat (zs : List (Fin n)) : (zs.map fun k : Fin n => ((k : ℕ) : ℤ)).mapM (toIdx n) = .ok zs := by
  induction zs with
  | nil => rfl
  | cons a l ih =>
    rw [List.map_cons, List.mapM_cons, toIdx_nat, ih]; rfl

theorem mapM_toIdx_cases (n : ℕ) (l : List ℤ) : (∃ zs, l.mapM (toIdx n) = .ok zs) ∨ l.mapM (toIdx n) = .error .index := by
  induction l with
  | nil => exact Or.inl ⟨[], rfl⟩
  | cons a l ih =>
    simp only [List.mapM_cons]
    rcases toIdx_cases n a with ⟨i, h⟩ | h
    · rw [h]
      rcases ih with ⟨zs, h'⟩ | h'
      · rw [h']; exact Or.inl ⟨i :: zs, rfl⟩
      · rw [h']; exact Or.inr rfl
    · rw [h]; exact Or.inr rfl

section
variable {corr : Matrix (Fin n) (Fin n) ℝ} {corr' : Matrix (Fin n') (Fin n') ℝ} {N : ℕ}

theorem cal_ok {x y : ℤ} {z : Option (List ℤ)} {i j : Fin n} {zs : List (Fin n)} (hx : toIdx n x = .ok i) (hy : toIdx n y = .ok j)
    (hz : (z.getD []).mapM (toIdx n) = .ok zs) : fisherzFromCorr corr N x y z = fromSub corr N i j zs := by
  unfold fisherzFromCorr
  rw [hx, hy, hz]; rfl

theorem cal_nat (i j : Fin n) (zs : List (Fin n)) :
    fisherzFromCorr corr N ((i : ℕ) : ℤ) ((j : ℕ) : ℤ) (some (zs.map fun k : Fin n => ((k : ℕ) : ℤ))) = fromSub corr N i j zs :=
  cal_ok (toIdx_nat i) (toIdx_nat j) (mapM_toIdx_nat zs)

theorem cal_none (i j : Fin n) : fisherzFromCorr corr N ((i : ℕ) : ℤ) ((j : ℕ) : ℤ) none = fromSub corr N i j [] :=
  cal_ok (toIdx_nat i) (toIdx_nat j) rfl

theorem cal_cases (corr : Matrix (Fin n) (Fin n) ℝ) (N : ℕ) (x y : ℤ) (z : Option (List ℤ)) :
    (∃ i j zs, toIdx n x = .ok i ∧ toIdx n y = .ok j ∧ (z.getD []).mapM (toIdx n) = .ok zs) ∨
    ((toIdx n x = .error .index ∨ toIdx n y = .error .index ∨ (z.getD []).mapM (toIdx n) = .error .index) ∧
      fisherzFromCorr corr N x y z = .error .index) := by
  unfold fisherzFromCorr
  rcases toIdx_cases n x with ⟨i, hx⟩ | hx
  · rcases toIdx_cases n y with ⟨j, hy⟩ | hy
    · rcases mapM_toIdx_cases n (z.getD []) with ⟨zs, hz⟩ | hz
      · exact Or.inl ⟨i, j, zs, hx, hy, hz⟩
      · rw [hx, hy, hz]; exact Or.inr ⟨Or.inr (Or.inr rfl), rfl⟩
    · rw [hx, hy]; exact Or.inr ⟨Or.inr (Or.inl rfl), rfl⟩
  · rw [hx]; exact Or.inr ⟨Or.inl rfl, rfl⟩

theorem fromSub_equiv {i j : Fin n} {zs : List (Fin n)} {i' j' : Fin n'} {zs' : List (Fin n')} (hl : zs.length = zs'.length)
    (e : Fin (zs.length + 2) ≃ Fin (zs'.length + 2)) (e0 : e 0 = 0) (e1 : e 1 = 1)
    (h : ∀ p q, corr (var i j zs p) (var i j zs q) = corr' (var i' j' zs' (e p)) (var i' j' zs' (e q))) :
    fromSub corr N i j zs = fromSub corr' N i' j' zs' := by
  have hs : corr.submatrix (var i j zs) (var i j zs) = (corr'.submatrix (var i' j' zs') (var i' j' zs')).submatrix e e := by
    ext p q; exact h p q
  unfold fromSub
  simp only
  rw [hs, det_submatrix_equiv_self, inv_submatrix_equiv, submatrix_apply, submatrix_apply, submatrix_apply, e0, e1, hl]

theorem fromSub_swap (hc : corr.transpose = corr) (i j : Fin n) (zs : List (Fin n)) : fromSub corr N j i zs = fromSub corr N i j zs := by
  let e : Fin (zs.length + 2) ≃ Fin (zs.length + 2) := Equiv.swap 0 1
  have hv : ∀ p, var j i zs p = var i j zs (e p) := by
    intro p
    refine Fin.cases ?_ (fun p => Fin.cases ?_ (fun p => ?_) p) p
    · simp only [e, Equiv.swap_apply_left]; rfl
    · have : (Fin.succ 0 : Fin (zs.length + 2)) = 1 := rfl
      simp only [e, this, Equiv.swap_apply_right]; rfl
    · have h0 : (p.succ.succ : Fin (zs.length + 2)) ≠ 0 := Fin.succ_ne_zero _
      have h1 : (p.succ.succ : Fin (zs.length + 2)) ≠ 1 := fun h => Fin.succ_ne_zero p (Fin.succ_injective _ h)
      simp only [e, Equiv.swap_apply_of_ne_of_ne h0 h1]; rfl
  have hs : corr.submatrix (var j i zs) (var j i zs) = (corr.submatrix (var i j zs) (var i j zs)).submatrix e e := by
    ext p q; simp only [submatrix_apply, hv]
  have ht : (corr.submatrix (var i j zs) (var i j zs)).transpose = corr.submatrix (var i j zs) (var i j zs) := by
    rw [transpose_submatrix, hc]
  have hi : (corr.submatrix (var i j zs) (var i j zs))⁻¹ 1 0 = (corr.submatrix (var i j zs) (var i j zs))⁻¹ 0 1 := by
    conv_lhs => rw [← ht, ← transpose_nonsing_inv]
    rfl
  unfold fromSub
  simp only
  rw [hs, det_submatrix_equiv_self, inv_submatrix_equiv, submatrix_apply, submatrix_apply, submatrix_apply]
  simp only [e, Equiv.swap_apply_left, Equiv.swap_apply_right]
  rw [hi, mul_comm]

/-- A reordering of a list as a bijection of positions. -/
theorem perm_equiv {α : Type} {l l' : List α} (h : l.Perm l') : ∃ e : Fin l.length ≃ Fin l'.length, ∀ p, l'.get (e p) = l.get p := by
  induction h with
  | nil => exact ⟨Equiv.refl _, fun p => p.elim0⟩
  | cons a _ ih =>
    rename_i l l' _
    obtain ⟨e, he⟩ := ih
    refine ⟨((finSuccEquiv l.length).trans e.optionCongr).trans (finSuccEquiv l'.length).symm, fun p => ?_⟩
    refine Fin.cases ?_ (fun p => ?_) p
    · simp
    · simp only [Equiv.trans_apply, finSuccEquiv_succ, Equiv.optionCongr_apply, Option.map_some, finSuccEquiv_symm_some]
      exact he p
  | swap a b l =>
    refine ⟨Equiv.swap (0 : Fin (l.length + 2)) 1, fun p => ?_⟩
    refine Fin.cases ?_ (fun p => Fin.cases ?_ (fun p => ?_) p) p
    · rw [Equiv.swap_apply_left]; rfl
    · have : (Fin.succ 0 : Fin (l.length + 2)) = 1 := rfl
      rw [this, Equiv.swap_apply_right]; rfl
    · have h0 : (p.succ.succ : Fin (l.length + 2)) ≠ 0 := Fin.succ_ne_zero _
      have h1 : (p.succ.succ : Fin (l.length + 2)) ≠ 1 := fun h => Fin.succ_ne_zero p (Fin.succ_injective _ h)
      rw [Equiv.swap_apply_of_ne_of_ne h0 h1]; rfl
  | trans _ _ ih1 ih2 =>
    obtain ⟨e1, h1⟩ := ih1
    obtain ⟨e2, h2⟩ := ih2
    exact ⟨e1.trans e2, fun p => (h2 _).trans (h1 p)⟩

/-- A bijection of positions of the conditioning variables, extended to all. -/
def lift2 {k k' : ℕ} (e : Fin k ≃ Fin k') : Fin (k + 2) ≃ Fin (k' + 2) :=
  ((finSuccEquiv (k + 1)).trans (((finSuccEquiv k).trans (e.optionCongr.trans (finSuccEquiv k').symm)).optionCongr)).trans (finSuccEquiv (k' + 1)).symm

theorem lift2_zero {k k' : ℕ} (e : Fin k ≃ Fin k') : lift2 e 0 = 0 := by
  simp only [lift2, Equiv.trans_apply, finSuccEquiv_zero, Equiv.optionCongr_apply, Option.map_none, finSuccEquiv_symm_none]

theorem lift2_one {k k' : ℕ} (e : Fin k ≃ Fin k') : lift2 e 1 = 1 := by
  have : (1 : Fin (k + 2)) = Fin.succ 0 := rfl
  rw [this]
  simp only [lift2, Equiv.trans_apply, finSuccEquiv_succ, Equiv.optionCongr_apply, Option.map_some, finSuccEquiv_zero, Option.map_none,
    finSuccEquiv_symm_none, finSuccEquiv_symm_some]
  rfl

theorem lift2_succ {k k' : ℕ} (e : Fin k ≃ Fin k') (p : Fin k) : lift2 e p.succ.succ = (e p).succ.succ := by
  simp only [lift2, Equiv.trans_apply, finSuccEquiv_succ, Equiv.optionCongr_apply, Option.map_some, finSuccEquiv_symm_some]

theorem var_lift2 {zs : List (Fin n)} {zs' : List (Fin n')} (e : Fin zs.length ≃ Fin zs'.length) {i j : Fin n} {i' j' : Fin n'}
    {P : Fin n → Fin n' → Prop} (h0 : P i i') (h1 : P j j') (h : ∀ p, P (zs.get p) (zs'.get (e p))) (p : Fin (zs.length + 2)) :
    P (var i j zs p) (var i' j' zs' (lift2 e p)) := by
  refine Fin.cases ?_ (fun p => Fin.cases ?_ (fun p => ?_) p) p
  · rw [lift2_zero]; exact h0
  · have : (Fin.succ 0 : Fin (zs.length + 2)) = 1 := rfl
    rw [this, lift2_one]; exact h1
  · rw [lift2_succ]; exact h p

theorem fromSub_perm {i j : Fin n} {zs zs' : List (Fin n)} (h : zs.Perm zs') : fromSub corr N i j zs = fromSub corr N i j zs' := by
  obtain ⟨e, he⟩ := perm_equiv h
  have hv := var_lift2 (P := Eq) e (i := i) (j := j) rfl rfl (fun p => (he p).symm)
  refine fromSub_equiv h.length_eq (lift2 e) (lift2_zero e) (lift2_one e) fun p q => ?_
  rw [hv p, hv q]

/-- The statistic does not depend on the order of its arguments. -/
theorem cal_symm (hc : corr.transpose = corr) {x y : ℤ} {z : Option (List ℤ)} {x' y' : ℤ} {z' : Option (List ℤ)}
    (h : SameQuery x y z x' y' z') : fisherzFromCorr corr N x y z = fisherzFromCorr corr N x' y' z' := by
  obtain ⟨hp, hz⟩ := h
  have hz' : (z.getD []).Perm (z'.getD []) := by
    cases z <;> cases z' <;> simp only at hz
    · rfl
    · exact hz
  rcases cal_cases corr N x y z with ⟨i, j, zs, h1, h2, h3⟩ | ⟨h, he⟩
  · obtain ⟨zs', h3', hperm⟩ := mapM_perm hz' h3
    rw [cal_ok h1 h2 h3]
    rcases hp with ⟨rfl, rfl⟩ | ⟨rfl, rfl⟩
    · rw [cal_ok h1 h2 h3', fromSub_perm hperm]
    · rw [cal_ok h2 h1 h3', fromSub_perm hperm, fromSub_swap hc]
  · rw [he]
    rcases cal_cases corr N x' y' z' with ⟨i, j, zs, h1, h2, h3⟩ | ⟨_, he'⟩
    · exfalso
      obtain ⟨zs', h3', _⟩ := mapM_perm hz'.symm h3
      rw [h3'] at h
      rcases hp with ⟨rfl, rfl⟩ | ⟨rfl, rfl⟩ <;> rw [h1, h2] at h <;> simp at h
    · exact he'.symm

end

section picks
variable {corr : Matrix (Fin n) (Fin n) ℝ} {N : ℕ} {i j : Fin n} {zs : List (Fin n)}

theorem picks_var (h : (i :: j :: zs).Nodup) : Picks (var i j zs) i j (fun w => w ∈ zs) where
  inj := List.nodup_iff_injective_get.1 h
  fst := rfl
  snd := rfl
  rest := by
    intro v
    constructor
    · intro hv
      obtain ⟨p, hp⟩ := List.mem_iff_get.1 hv
      exact ⟨p.succ.succ, Fin.succ_ne_zero _, fun h => Fin.succ_ne_zero p (Fin.succ_injective _ h), hp⟩
    · rintro ⟨p, h0, h1, rfl⟩
      revert h0 h1
      refine Fin.cases ?_ (fun p => Fin.cases ?_ (fun p => ?_) p) p
      · intro h; exact absurd rfl h
      · intro _ h; exact absurd rfl h
      · intro _ _; exact List.getElem_mem _

theorem posDef_det {m : ℕ} {S : Matrix (Fin m) (Fin m) ℝ} (hS : S.PosDef) : S.det ≠ 0 :=
  isUnit_iff_ne_zero.1 ((isUnit_iff_isUnit_det _).1 hS.isUnit)

theorem inv_symm {m : ℕ} {S : Matrix (Fin m) (Fin m) ℝ} (hS : S.PosDef) (p q : Fin m) : S⁻¹ p q = S⁻¹ q p := by
  have := (posDef_iff.1 hS.inv).1
  exact congrFun (congrFun this q) p

theorem fromSub_posDef (hS : (corr.submatrix (var i j zs) (var i j zs)).PosDef) :
    fromSub corr N i j zs = .ok (pOf N zs.length (.fin (-(corr.submatrix (var i j zs) (var i j zs))⁻¹ 0 1 /
        Real.sqrt ((corr.submatrix (var i j zs) (var i j zs))⁻¹ 0 0 * (corr.submatrix (var i j zs) (var i j zs))⁻¹ 1 1))),
      .fin (-(corr.submatrix (var i j zs) (var i j zs))⁻¹ 0 1 /
        Real.sqrt ((corr.submatrix (var i j zs) (var i j zs))⁻¹ 0 0 * (corr.submatrix (var i j zs) (var i j zs))⁻¹ 1 1))) := by
  have h0 := PosDef.diag_pos hS.inv (i := 0)
  have h1 := PosDef.diag_pos hS.inv (i := 1)
  have hp := mul_pos h0 h1
  unfold fromSub
  simp only
  rw [if_neg (posDef_det hS)]
  simp only [statOf, if_neg hp.ne', abs_of_pos hp]

/-- The off-diagonal entry of a positive definite matrix. -/
theorem inv_lt {m : ℕ} {S : Matrix (Fin (m + 2)) (Fin (m + 2)) ℝ} (hS : S.PosDef) : S⁻¹ 0 1 ^ 2 < S⁻¹ 0 0 * S⁻¹ 1 1 := by
  have h0 := PosDef.diag_pos hS.inv (i := 0)
  have hq := (posDef_iff.1 hS.inv).2 (Pi.single 0 (S⁻¹ 0 1) - Pi.single 1 (S⁻¹ 0 0)) (by
    intro h
    have := congrFun h 1
    simp at this
    exact h0.ne' this)
  have e : dotProduct (Pi.single 0 (S⁻¹ 0 1) - Pi.single 1 (S⁻¹ 0 0) : Fin (m + 2) → ℝ)
      (S⁻¹.mulVec (Pi.single 0 (S⁻¹ 0 1) - Pi.single 1 (S⁻¹ 0 0))) = S⁻¹ 0 0 * (S⁻¹ 0 0 * S⁻¹ 1 1 - S⁻¹ 0 1 ^ 2) := by
    rw [mulVec_sub, sub_dotProduct, single_dotProduct, single_dotProduct, Pi.sub_apply, Pi.sub_apply, mulVec_single, mulVec_single]
    simp only [Pi.smul_apply, col_apply, MulOpposite.smul_eq_mul_unop, MulOpposite.unop_op, inv_symm hS 1 0]
    ring
  rw [e] at hq
  have := (pos_iff_pos_of_mul_pos hq).1 h0
  linarith

end picks

section pval
variable {N k : ℕ}

theorem absStat_fin (r : ℝ) : 0 ≤ absStat (.fin r) ∧ absStat (.fin r) < 1 ∧ (absStat (.fin r) = 0 ↔ r = 0) := by
  unfold absStat
  refine ⟨le_min (by norm_num) (abs_nonneg r), (min_le_left _ _).trans_lt (by norm_num), ?_⟩
  constructor
  · intro h
    change min (9999999 / 10000000 : ℝ) |r| = 0 at h
    rcases min_choice (9999999 / 10000000 : ℝ) |r| with h' | h' <;> rw [h'] at h
    · norm_num at h
    · exact abs_eq_zero.1 h
  · rintro rfl; norm_num

theorem zOf_eq {a : ℝ} (h1 : a < 1) : zOf a = 1 / 2 * Real.log ((1 + a) / (1 - a)) := by
  unfold zOf
  congr 2
  have : 1 - a ≠ 0 := by linarith
  field_simp
  ring

theorem zOf_mono {a b : ℝ} (ha : 0 ≤ a) (h : a ≤ b) (hb : b < 1) : zOf a ≤ zOf b := by
  unfold zOf
  have h1 : 0 < 1 - b := by linarith
  have h2 : 0 < 1 - a := by linarith
  have : 2 * a / (1 - a) ≤ 2 * b / (1 - b) := by
    rw [div_le_div_iff₀ h2 h1]; nlinarith
  have h3 : 0 ≤ 2 * a / (1 - a) := by positivity
  have := Real.log_le_log (by linarith) (show 1 + 2 * a / (1 - a) ≤ 1 + 2 * b / (1 - b) by linarith)
  linarith

theorem zOf_zero : zOf 0 = 0 := by simp [zOf]

theorem zOf_nonneg {a : ℝ} (ha : 0 ≤ a) (h1 : a < 1) : 0 ≤ zOf a := zOf_zero ▸ zOf_mono le_rfl ha h1

theorem zOf_pos {a : ℝ} (ha : 0 < a) (h1 : a < 1) : 0 < zOf a := by
  unfold zOf
  have h2 : 0 < 1 - a := by linarith
  have h3 : 0 < 2 * a / (1 - a) := by positivity
  have := Real.log_pos (show 1 < 1 + 2 * a / (1 - a) by linarith)
  linarith

/-- The test value is never negative. -/
theorem pOf_val (h : k + 3 ≤ N) (r : ℝ) :
    pOf N k (.fin r) = .val (2 * (1 - normCdf (Real.sqrt ((N : ℝ) - k - 3) * zOf (absStat (.fin r))))) := by
  obtain ⟨h0, h1, _⟩ := absStat_fin r
  unfold pOf
  rw [if_neg (by omega), abs_of_nonneg (zOf_nonneg h0 h1), abs_of_nonneg (mul_nonneg (Real.sqrt_nonneg _) (zOf_nonneg h0 h1))]

end pval

end Cdmir.Fisher
