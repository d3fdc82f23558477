import Verif.Lemmas.CrossVal
import Verif.Props.CrossVal
import Mathlib.Tactic.Positivity
import Mathlib.Tactic.NormNum

/-!
Properties C109 (when the cross-validated scores are defined, and what they depend on), C110 (the matrices are positive
definite, and a bound) and C111 (the order of the parents).
-/

namespace Cdmir.CV
open KTest

variable {T p : ℕ}

theorem scoreOf_ok {k : ℕ} (hk : 2 ≤ k) (hT : k ≤ T) (Kx : Option (Matrix (Fin T) (Fin T) ℝ))
    (Kpa : List (Option (Matrix (Fin T) (Fin T) ℝ))) (lam : ℝ) :
    (∃ v, scoreOf Kx Kpa lam k = .ok v) ↔ Kx ≠ none ∧ none ∉ Kpa := by
  unfold scoreOf
  rw [if_neg (by omega)]
  cases Kx with
  | none => simp
  | some K =>
    cases Kpa with
    | nil =>
      have h : ¬ ∃ kk < k, (fold T k kk).n1 = 0 := by
        rintro ⟨kk, h1, h2⟩
        exact absurd h2 ((c108_partition hk hT).2 kk h1).2.2.2.2.ne'
      simp [scoreNone, h]
    | cons o l =>
      cases h : kernPar (o :: l) with
      | none =>
        have h2 := (kernPar_none _).1 h
        simp only [h]
        simp [h2]
      | some Kp =>
        have h2 : none ∉ o :: l := fun hn => by rw [(kernPar_none _).2 hn] at h; cases h
        simp only [h]
        simp [h2]

theorem col_const {data : Data T p} {j : Fin p} : (∀ r s, col data j r = col data j s) ↔ ∀ r s, data r j = data s j :=
  ⟨fun h r s => congrFun (h r s) 0, fun h r s => funext fun _ => h r s⟩

/-- C109, when there is a score. With at least two folds and as many rows as folds, the general score has a value exactly if
neither the column scored nor the column of a parent is constant; otherwise it raises. -/
theorem c109_defined {k : ℕ} (hk : 2 ≤ k) (hT : k ≤ T) (data : Data T p) (lam : ℝ) (i : Fin p) (pa : List (Fin p)) :
    (∃ v, generalCV data lam k i pa = .ok v) ↔ ∀ j ∈ i :: pa, ∃ r s, data r j ≠ data s j := by
  have h : ∀ j, kern 2 1 (col data j) ≠ none ↔ ∃ r s, data r j ≠ data s j := by
    intro j
    rw [Ne, kern_none, col_const]
    push Not
    rfl
  rw [generalCV, scoreOf_ok hk hT, h]
  simp only [List.mem_map, not_exists, not_and, List.forall_mem_cons]
  exact and_congr_right fun _ => forall₂_congr fun j _ => h j

/-- Three rows and two folds: the second column is constant and cannot be a parent. -/
example : (∃ v, generalCV (T := 3) (p := 2) ![![1, 5], ![2, 5], ![4, 5]] (1 / 100) 2 0 [] = .ok v) ∧
    ¬ ∃ v, generalCV (T := 3) (p := 2) ![![1, 5], ![2, 5], ![4, 5]] (1 / 100) 2 0 [1] = .ok v := by
  rw [c109_defined (by omega) (by omega), c109_defined (by omega) (by omega)]
  constructor
  · intro j hj
    rw [List.mem_singleton.1 hj]
    exact ⟨0, 1, by norm_num⟩
  · intro h
    obtain ⟨r, s, hrs⟩ := h 1 (by simp)
    exact hrs (by fin_cases r <;> fin_cases s <;> rfl)

/-- C109, units. The general score does not change if each column is multiplied by a number other than zero and shifted. -/
theorem c109_affine (data : Data T p) (a b : Fin p → ℝ) (ha : ∀ j, a j ≠ 0) (lam : ℝ) (k : ℕ) (i : Fin p) (pa : List (Fin p)) :
    generalCV (fun r j => a j * data r j + b j) lam k i pa = generalCV data lam k i pa := by
  have h : ∀ j, kern 2 1 (col (fun r j => a j * data r j + b j) j) = kern 2 1 (col data j) := by
    intro j
    refine kern_scale 2 1 (a := a j ^ 2) (by have := ha j; positivity) fun r s => ?_
    simp only [sqDist, col, Finset.univ_unique, Finset.sum_singleton]
    ring
  unfold generalCV
  rw [h, List.map_congr_left fun j _ => h j]

/-- Temperatures in Fahrenheit and in Celsius. -/
example (lam : ℝ) : generalCV (T := 3) (p := 2) (fun r j => ![9 / 5, 1] j * (![![10, 1], ![20, 5], ![25, 7]] : Data 3 2) r j + ![32, 0] j)
    lam 2 0 [1] = generalCV (T := 3) (p := 2) ![![10, 1], ![20, 5], ![25, 7]] lam 2 0 [1] :=
  c109_affine _ _ _ (fun j => by fin_cases j <;> norm_num) lam 2 0 [1]

/-- C109, variables of several columns. The score of `MultiCVScore` does not change under maps of each variable that multiply
all squared distances by one positive number, so under rotations, shifts and changes of scale. -/
theorem c109_multi {V : Type} {dim : V → ℕ} (vars vars' : (v : V) → Data T (dim v)) (a : V → ℝ) (ha : ∀ v, 0 < a v)
    (h : ∀ v r s, sqDist (vars' v) r s = a v * sqDist (vars v) r s) (lam : ℝ) (k : ℕ) (i : V) (pa : List V) :
    multiCV vars' lam k i pa = multiCV vars lam k i pa := by
  have h' : ∀ j, kern 3 (dim j) (vars' j) = kern 3 (dim j) (vars j) := fun j => kern_scale 3 (dim j) (ha j) (h j)
  unfold multiCV
  rw [h', List.map_congr_left fun j _ => h' j]

/-- A quarter turn of a variable of two columns. -/
example (x y z : Fin 4 → ℝ) (lam : ℝ) :
    multiCV (T := 4) (V := Fin 2) (dim := ![2, 1]) (Fin.cons (fun r => ![-y r, x r]) (Fin.cons (fun r _ => z r) (fun i => i.elim0))) lam 2 0 [1] =
      multiCV (T := 4) (V := Fin 2) (dim := ![2, 1]) (Fin.cons (fun r => ![x r, y r]) (Fin.cons (fun r _ => z r) (fun i => i.elim0))) lam 2 0 [1] := by
  refine c109_multi _ _ (fun _ => 1) (fun _ => one_pos) (fun v r s => ?_) lam 2 0 [1]
  rw [one_mul]
  fin_cases v
  · change ∑ k : Fin 2, _ = ∑ k : Fin 2, _
    rw [Fin.sum_univ_two, Fin.sum_univ_two]
    change (-y r - -y s) ^ 2 + (x r - x s) ^ 2 = (x r - x s) ^ 2 + (y r - y s) ^ 2
    ring
  · rfl

/-- C109, the kernel. For a variable that is not constant there is a positive number `m`, the median of the squared distances of
different rows, such that the kernel matrix is `exp(-d² / (m c² q))`. -/
theorem c109_kernel {d : ℕ} (c q : ℝ) (X : Data T d) (h : ∃ r s, X r ≠ X s) :
    ∃ m > 0, median (upper fun r s => ∑ k, (X r k - X s k) ^ 2) = some m ∧
      ∃ K, kern c q X = some K ∧ ∀ r s, K r s = Real.exp (-(∑ k, (X r k - X s k) ^ 2) / (m * c ^ 2 * q)) := by
  cases hm : median (upper (sqDist X)) with
  | none =>
    have h1 : kern c q X = none := by rw [kern_eq, hm]; rfl
    obtain ⟨r, s, hrs⟩ := h
    exact absurd (kern_none.1 h1 r s) hrs
  | some m =>
    have hp := median_pos (fun x hx => (mem_upper.1 hx).1) hm
    refine ⟨m, hp, hm, _, by rw [kern_eq, hm]; rfl, fun r s => ?_⟩
    simp only [Matrix.of_apply, sqDist]
    congr 1
    ring

example : ∃ m > 0, median (upper fun r s => ∑ k, ((![![1], ![2], ![4]] : Data 3 1) r k - (![![1], ![2], ![4]] : Data 3 1) s k) ^ 2) = some m ∧
    ∃ K, kern 2 1 (![![1], ![2], ![4]] : Data 3 1) = some K ∧
      ∀ r s, K r s = Real.exp (-(∑ k, ((![![1], ![2], ![4]] : Data 3 1) r k - (![![1], ![2], ![4]] : Data 3 1) s k) ^ 2) / (m * 2 ^ 2 * 1)) :=
  c109_kernel 2 1 _ ⟨0, 1, fun h => by have := congrFun h 0; norm_num at this⟩

/-! C110. -/

theorem gam_pos : 0 < gam := by unfold gam; norm_num

theorem tmp1_symm {Kp : Matrix (Fin T) (Fin T) ℝ} (h : Kp.PosSemidef) (lam : ℝ) (f : Fold T) : (tmp1 Kp lam f).transpose = tmp1 Kp lam f := by
  unfold tmp1
  rw [Matrix.transpose_nonsing_inv, Matrix.transpose_add, herm_symm (block_psd h f.tr).isHermitian]
  simp

theorem tmp2_psd {K Kp : Matrix (Fin T) (Fin T) ℝ} (hK : K.PosSemidef) (hp : Kp.PosSemidef) (lam : ℝ) (f : Fold T) :
    (tmp2 K Kp lam f).PosSemidef := by
  have := (block_psd hK f.tr).mul_mul_conjTranspose_same (tmp1 Kp lam f)
  rwa [Matrix.conjTranspose_eq_transpose_of_trivial, tmp1_symm hp] at this

theorem coef_nonneg (lam : ℝ) (n : ℕ) : 0 ≤ (n : ℝ) * lam ^ 2 / gam := by
  have := gam_pos
  positivity

theorem aNone_diag {K : Matrix (Fin T) (Fin T) ℝ} (hK : K.PosSemidef) (f : Fold T) (j : f.te) : 0 ≤ aNone K f j j := by
  have hc : 0 ≤ 1 / (gam * f.n1) := by have := gam_pos; positivity
  have h := schur_none (block_psd hK f.tr) (fun x => block_quad hK f.tr f.te j x) hc
  unfold aNone
  rw [Matrix.smul_apply, Matrix.sub_apply, Matrix.smul_apply, entry_eq, smul_eq_mul, smul_eq_mul]
  have := gam_pos
  exact mul_nonneg (by positivity) h

theorem aPar_diag {K Kp : Matrix (Fin T) (Fin T) ℝ} (hK : K.PosSemidef) (hp : Kp.PosSemidef) (lam : ℝ) (f : Fold T) (j : f.te) :
    0 ≤ aPar K Kp lam f j j := by
  have h := schur_par (block_psd hK f.tr) (tmp1_symm hp lam f) (p := fun t => block Kp f.tr f.te t j)
    (fun x => block_quad hK f.tr f.te j x) (coef_nonneg lam f.n1) (V := tmp3 K Kp lam f) rfl
  simp only [← entry_eq] at h
  have := gam_pos
  unfold aPar
  rw [Matrix.smul_apply, smul_eq_mul]
  refine mul_nonneg (by positivity) (le_of_le_of_eq h ?_)
  simp only [Matrix.add_apply, Matrix.sub_apply, Matrix.smul_apply, smul_eq_mul, tmp2, Matrix.mul_assoc]

theorem term_bound {f : Fold T} {B : Matrix f.tr f.tr ℝ} {A : Matrix f.te f.te ℝ} (hB : 1 ≤ B.det) (hA : ∀ j, 0 ≤ A j j) :
    (f.nv : ℝ) ^ 2 * Real.log (2 * Real.pi) / 2 ≤ term B A := by
  have h1 : 0 ≤ Real.log B.det := Real.log_nonneg hB
  have h2 : 0 ≤ A.trace := Finset.sum_nonneg fun j _ => hA j
  have h3 : 0 ≤ (f.nv : ℝ) * (1 / 2 * Real.log B.det) := by positivity
  unfold term
  have : (f.nv : ℝ) ^ 2 = f.nv * f.nv := sq _
  rw [this]
  linarith

theorem score_bound {k : ℕ} {t : ℕ → ℝ} {n : ℕ → ℕ} (h : ∀ kk, (n kk : ℝ) ^ 2 * Real.log (2 * Real.pi) / 2 ≤ t kk) :
    -((∑ kk ∈ Finset.range k, t kk) / k) ≤ -(Real.log (2 * Real.pi) / (2 * k) * ∑ kk ∈ Finset.range k, (n kk : ℝ) ^ 2) := by
  rw [neg_le_neg_iff]
  have h1 := Finset.sum_le_sum (s := Finset.range k) fun kk _ => h kk
  have h2 : Real.log (2 * Real.pi) / (2 * k) * ∑ kk ∈ Finset.range k, (n kk : ℝ) ^ 2 =
      (∑ kk ∈ Finset.range k, (n kk : ℝ) ^ 2 * Real.log (2 * Real.pi) / 2) / k := by
    rw [← Finset.sum_div, ← Finset.sum_mul]
    ring
  rw [h2]
  exact div_le_div_of_nonneg_right h1 (Nat.cast_nonneg k)

theorem kernPar_psd {l : List (Option (Matrix (Fin T) (Fin T) ℝ))} (hl : ∀ o ∈ l, ∀ K, o = some K → K.PosSemidef)
    {K : Matrix (Fin T) (Fin T) ℝ} (h : kernPar l = some K) : K.PosSemidef :=
  kernPar_some (P := fun K => K.PosSemidef) ones_psd (fun _ _ hA hB => hA.hadamard hB) l hl K h

theorem scoreOf_bound {Kx : Option (Matrix (Fin T) (Fin T) ℝ)} {Kpa : List (Option (Matrix (Fin T) (Fin T) ℝ))} {lam v : ℝ} {k : ℕ}
    (hx : ∀ K, Kx = some K → K.PosSemidef) (hpa : ∀ o ∈ Kpa, ∀ K, o = some K → K.PosSemidef) (h : scoreOf Kx Kpa lam k = .ok v) :
    v ≤ -(Real.log (2 * Real.pi) / (2 * k) * ∑ kk ∈ Finset.range k, ((fold T k kk).nv : ℝ) ^ 2) := by
  unfold scoreOf at h
  split_ifs at h with hk
  cases Kx with
  | none => cases h
  | some K =>
    have hK := center_psd (hx K rfl)
    cases Kpa with
    | nil =>
      simp only [scoreNone] at h
      split_ifs at h
      cases h
      refine score_bound fun kk => term_bound ?_ (aNone_diag hK _)
      have := gam_pos
      have := det_one_add ((block_psd hK (fold T k kk).tr).smul (show 0 ≤ 1 / (gam * (fold T k kk).n1) by positivity))
      rwa [add_comm] at this
    | cons o l =>
      simp only at h
      cases hp : kernPar (o :: l) with
      | none => rw [hp] at h; cases h
      | some Kp =>
        rw [hp] at h
        cases h
        have hP := center_psd (kernPar_psd hpa hp)
        refine score_bound fun kk => term_bound ?_ (aPar_diag hK hP lam _)
        have := det_one_add ((tmp2_psd hK hP lam (fold T k kk)).smul (coef_nonneg lam (fold T k kk).n1))
        rwa [add_comm] at this

/-- C110, the bound. Whatever the data, the value of λ and the parents, a score is at most `-log(2π)/(2k)` times the sum of the
squared sizes of the folds. -/
theorem c110_bound {data : Data T p} {lam : ℝ} {k : ℕ} {i : Fin p} {pa : List (Fin p)} {v : ℝ} (h : generalCV data lam k i pa = .ok v) :
    v ≤ -(Real.log (2 * Real.pi) / (2 * k) * ∑ kk ∈ Finset.range k, ((fold T k kk).nv : ℝ) ^ 2) := by
  refine scoreOf_bound (fun K hK => kern_some zero_le_one hK) (fun o ho K hK => ?_) h
  obtain ⟨j, -, rfl⟩ := List.mem_map.1 ho
  exact kern_some zero_le_one hK

/-- The same for variables of several columns. -/
theorem c110_multi {V : Type} {dim : V → ℕ} {vars : (v : V) → Data T (dim v)} {lam : ℝ} {k : ℕ} {i : V} {pa : List V} {v : ℝ}
    (h : multiCV vars lam k i pa = .ok v) :
    v ≤ -(Real.log (2 * Real.pi) / (2 * k) * ∑ kk ∈ Finset.range k, ((fold T k kk).nv : ℝ) ^ 2) := by
  refine scoreOf_bound (fun K hK => kern_some (Nat.cast_nonneg _) hK) (fun o ho K hK => ?_) h
  obtain ⟨j, -, rfl⟩ := List.mem_map.1 ho
  exact kern_some (Nat.cast_nonneg _) hK

/-- Three rows, two folds of one and two rows: every score is at most `-5 log(2π) / 4`, so negative. -/
example : ∃ v, generalCV (T := 3) (p := 2) ![![1, 5], ![2, 3], ![4, 5]] (1 / 100) 2 0 [1] = .ok v ∧ v ≤ -(5 / 4 * Real.log (2 * Real.pi)) := by
  obtain ⟨v, hv⟩ := (c109_defined (T := 3) (p := 2) (k := 2) (by omega) (by omega) ![![1, 5], ![2, 3], ![4, 5]] (1 / 100) 0 [1]).2 (by
    intro j hj
    fin_cases j
    · exact ⟨0, 1, by norm_num⟩
    · exact ⟨0, 1, by norm_num⟩)
  refine ⟨v, hv, le_of_le_of_eq (c110_bound hv) ?_⟩
  have h0 : (fold 3 2 0).nv = 1 := by decide
  have h1 : (fold 3 2 1).nv = 2 := by decide
  rw [Finset.sum_range_succ, Finset.sum_range_one, h0, h1]
  norm_num
  ring

/-- C110, the matrices. With positive λ every matrix that is inverted or factored by Cholesky, in every fold, is positive
definite. -/
theorem c110_posdef {data : Data T p} {lam : ℝ} (hl : 0 < lam) {k : ℕ} (hk : 2 ≤ k) (hT : k ≤ T) {i : Fin p} {pa : List (Fin p)}
    {K Kp : Matrix (Fin T) (Fin T) ℝ} (hK : kern 2 1 (col data i) = some K)
    (hp : kernPar (pa.map fun j => kern 2 1 (col data j)) = some Kp) {kk : ℕ} (hkk : kk < k) :
    (block (center Kp) (fold T k kk).tr (fold T k kk).tr + (((fold T k kk).n1 : ℝ) * lam) • 1).PosDef ∧
      (1 + (((fold T k kk).n1 : ℝ) * lam ^ 2 / gam) • tmp2 (center K) (center Kp) lam (fold T k kk)).PosDef ∧
      (bPar (center K) (center Kp) lam (fold T k kk)).PosDef ∧ (bNone (center K) (fold T k kk)).PosDef := by
  have hn := ((c108_partition hk hT).2 kk hkk).2.2.2.2
  have h1 := center_psd (kern_some zero_le_one hK)
  have h2 : (center Kp).PosSemidef := by
    refine center_psd (kernPar_psd (fun o ho K hK => ?_) hp)
    obtain ⟨j, -, rfl⟩ := List.mem_map.1 ho
    exact kern_some zero_le_one hK
  have h3 := one_add_posDef ((tmp2_psd h1 h2 lam (fold T k kk)).smul (coef_nonneg lam (fold T k kk).n1))
  refine ⟨?_, h3, ?_, ?_⟩
  · rw [add_comm]
    exact (Matrix.PosDef.one.smul (by positivity)).add_posSemidef (block_psd h2 _)
  · unfold bPar
    rwa [add_comm]
  · have := gam_pos
    have := one_add_posDef ((block_psd h1 (fold T k kk).tr).smul (show 0 ≤ 1 / (gam * (fold T k kk).n1) by positivity))
    unfold bNone
    rwa [add_comm]

/-- Three rows and two folds. -/
example : ∃ K Kp, kern 2 1 (col (![![1, 5], ![2, 3], ![4, 5]] : Data 3 2) 0) = some K ∧
    kernPar ([1].map fun j => kern 2 1 (col (![![1, 5], ![2, 3], ![4, 5]] : Data 3 2) j)) = some Kp ∧
      (bPar (center K) (center Kp) (1 / 100) (fold 3 2 1)).PosDef := by
  obtain ⟨m, -, -, K, hK, -⟩ := c109_kernel 2 1 (col (![![1, 5], ![2, 3], ![4, 5]] : Data 3 2) 0)
    ⟨0, 1, fun h => by have := congrFun h 0; norm_num [col] at this⟩
  have hp : kernPar ([1].map fun j => kern 2 1 (col (![![1, 5], ![2, 3], ![4, 5]] : Data 3 2) j)) ≠ none := by
    rw [Ne, kernPar_none]
    simp only [List.map_cons, List.map_nil, List.mem_singleton]
    intro h
    have := congrFun (kern_none.1 h.symm 0 1) 0
    norm_num [col] at this
  obtain ⟨Kp, hKp⟩ := Option.ne_none_iff_exists'.1 hp
  exact ⟨K, Kp, hK, hKp, (c110_posdef (by norm_num) (by omega) (by omega) hK hKp (by omega)).2.2.1⟩

/-- C111. The order of the parents does not change the scores. -/
theorem c111_perm (data : Data T p) (lam : ℝ) (k : ℕ) (i : Fin p) {pa pa' : List (Fin p)} (h : pa.Perm pa') :
    generalCV data lam k i pa = generalCV data lam k i pa' := by
  unfold generalCV scoreOf
  have h1 := kernPar_perm (h.map fun j => kern 2 1 (col data j))
  cases pa with
  | nil => rw [h.nil_eq]
  | cons a l =>
    cases pa' with
    | nil => exact absurd h.symm.nil_eq (by simp)
    | cons a' l' =>
      simp only [List.map_cons] at h1 ⊢
      rw [h1]

example (data : Data 5 3) (lam : ℝ) : generalCV data lam 2 0 [1, 2] = generalCV data lam 2 0 [2, 1] :=
  c111_perm data lam 2 0 (List.Perm.swap 2 1 [])

end Cdmir.CV
