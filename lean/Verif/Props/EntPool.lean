import Verif.Props.EntLoss
import Verif.Props.NotearsPair

/-! C170: the losses of the entropy-based search pool the residuals of all variables. -/

namespace Cdmir.EntLoss
open BigOperators Notears Spec

variable {n d : Nat}

/-- The entries of a table, as the losses see them. -/
def flat (X : Matrix (Fin n) (Fin d) ℝ) : Fin n × Fin d → ℝ := fun p => X p.1 p.2

/-- linear_ent.py L104-110: the estimates of a linear model without bias. -/
def estimate (X : Matrix (Fin n) (Fin d) ℝ) (W : Matrix (Fin d) (Fin d) ℝ) : Fin n × Fin d → ℝ := flat (X * W)

theorem mean_zero {X : Matrix (Fin n) (Fin d) ℝ} (h0 : ∀ j, ∑ s, X s j = 0) (W : Matrix (Fin d) (Fin d) ℝ) :
    mean (residual (estimate X W) (flat X)) = 0 := by
  unfold mean
  rw [Fintype.sum_prod_type, Finset.sum_comm]
  have : ∀ j, ∑ s, residual (estimate X W) (flat X) (s, j) = 0 := fun j => by
    change ∑ s, (X s j - (X * W) s j) = 0
    rw [Finset.sum_sub_distrib, h0, zero_sub, neg_eq_zero]
    simp only [Matrix.mul_apply]
    rw [Finset.sum_comm]
    simp only [← Finset.sum_mul, h0, zero_mul, Finset.sum_const_zero]
  rw [Finset.sum_congr rfl fun j _ => this j, Finset.sum_const_zero, zero_div]

theorem var_sq (hn : 0 < n) {X : Matrix (Fin n) (Fin d) ℝ} (h0 : ∀ j, ∑ s, X s j = 0) (W : Matrix (Fin d) (Fin d) ℝ) :
    var (residual (estimate X W) (flat X)) = 2 * n * sq X W / (n * d - 1) := by
  have hn' : (n : ℝ) ≠ 0 := Nat.cast_ne_zero.2 hn.ne'
  unfold var
  rw [mean_zero h0, Fintype.card_prod, Fintype.card_fin, Fintype.card_fin, Fintype.sum_prod_type]
  unfold Notears.sq
  rw [show (2 * n : ℝ) * (1 / 2 / n * ∑ s, ∑ j, (X s j - ∑ l, X s l * W l j) ^ 2) = ∑ s, ∑ j, (X s j - ∑ l, X s l * W l j) ^ 2 by field_simp]
  push_cast
  congr 1
  refine Finset.sum_congr rfl fun s _ => Finset.sum_congr rfl fun j _ => ?_
  change (X s j - (X * W) s j - 0) ^ 2 = _
  rw [sub_zero, Matrix.mul_apply]

/-- C170. On centred data the spread that the losses see is the squared loss `l` of linear.py: `variance_loss` is a root of it, and the entropy losses are half its
logarithm, less a term that sees only the shape of all residuals together. -/
theorem c170_pooled (hn : 0 < n) {X : Matrix (Fin n) (Fin d) ℝ} (h0 : ∀ j, ∑ s, X s j = 0) {W : Matrix (Fin d) (Fin d) ℝ} {l : ℝ} {g : Matrix (Fin d) (Fin d) ℝ}
    (hl : loss realElem .l2 X W = some (l, g)) :
    varianceLoss (estimate X W) (flat X) = √(2 * n * l / (n * d - 1)) ∧
    mentappr (estimate X W) (flat X) = gaussEntropy + Real.log (2 * n * l / (n * d - 1)) / 2 - negentropy (standard (residual (estimate X W) (flat X))) ∧
    highOrder (estimate X W) (flat X) = Real.log (2 * n * l / (n * d - 1)) / 2 - k3 (standard (residual (estimate X W) (flat X))) ^ 2 / 12 -
      k4 (standard (residual (estimate X W) (flat X))) ^ 2 / 48 := by
  obtain ⟨g', hg'⟩ := loss_sq X W
  rw [hl] at hg'
  obtain rfl := (Prod.mk.inj (Option.some.inj hg')).1
  have hv := var_sq hn h0 W
  refine ⟨by rw [varianceLoss, std, hv], ?_, ?_⟩
  · unfold mentappr
    simp only
    by_cases hneg : 0 ≤ 2 * n * sq X W / (n * d - 1)
    · rw [std, hv, Real.log_sqrt hneg]
      ring
    · have hd : d = 0 := by
        by_contra hd
        refine hneg (div_nonneg (mul_nonneg (by positivity) (sq_nonneg' X W)) ?_)
        have h1 : (1 : ℝ) ≤ n := by exact_mod_cast hn
        have h2 : (1 : ℝ) ≤ d := by exact_mod_cast Nat.pos_of_ne_zero hd
        nlinarith
      subst hd
      exact absurd (by simp [Notears.sq]) hneg
  · unfold highOrder
    simp only
    rw [hv]
    ring

/-- C170: so `variance_loss` compares matrices exactly as the squared loss does. -/
theorem c170_variance (hn : 0 < n) (hnd : 1 < n * d) {X : Matrix (Fin n) (Fin d) ℝ} (h0 : ∀ j, ∑ s, X s j = 0) {W W' : Matrix (Fin d) (Fin d) ℝ} {l l' : ℝ}
    {g g' : Matrix (Fin d) (Fin d) ℝ} (hl : loss realElem .l2 X W = some (l, g)) (hl' : loss realElem .l2 X W' = some (l', g')) :
    varianceLoss (estimate X W) (flat X) ≤ varianceLoss (estimate X W') (flat X) ↔ l ≤ l' := by
  have hc : (0 : ℝ) < n * d - 1 := by
    have : (1 : ℝ) < (n * d : ℕ) := by exact_mod_cast hnd
    push_cast at this
    linarith
  obtain ⟨g1, hg1⟩ := loss_sq X W'
  have e1 := (Prod.mk.inj (Option.some.inj (hl'.symm.trans hg1))).1
  have hpos : 0 ≤ l' := e1 ▸ sq_nonneg' X W'
  have hn' : (0 : ℝ) < n := by exact_mod_cast hn
  rw [(c170_pooled hn h0 hl).1, (c170_pooled hn h0 hl').1, Real.sqrt_le_sqrt_iff (div_nonneg (by positivity) hc.le), div_le_div_iff_of_pos_right hc,
    mul_le_mul_iff_of_pos_left (by positivity)]

/-- C170: the term for the shape is between 0 and 21, so a squared loss that is less by a large enough factor decides. -/
theorem c170_decides (hn : 0 < n) (hnd : 1 < n * d) {X : Matrix (Fin n) (Fin d) ℝ} (h0 : ∀ j, ∑ s, X s j = 0) {W W' : Matrix (Fin d) (Fin d) ℝ} {l l' : ℝ}
    {g g' : Matrix (Fin d) (Fin d) ℝ} (hl : loss realElem .l2 X W = some (l, g)) (hl' : loss realElem .l2 X W' = some (l', g')) (hpos : 0 < l)
    (h : l * Real.exp 42 ≤ l') : mentappr (estimate X W) (flat X) < mentappr (estimate X W') (flat X) := by
  have hc : (0 : ℝ) < n * d - 1 := by
    have : (1 : ℝ) < (n * d : ℕ) := by exact_mod_cast hnd
    push_cast at this
    linarith
  have hn' : (0 : ℝ) < n := by exact_mod_cast hn
  have hne : Nonempty (Fin n × Fin d) := ⟨⟨0, hn⟩, ⟨0, Nat.pos_of_ne_zero fun e => by simp [e] at hnd⟩⟩
  have bound : ∀ x : Fin n × Fin d → ℝ, 0 ≤ negentropy x ∧ negentropy x < 21 := by
    intro x
    have hcard : (0 : ℝ) < Fintype.card (Fin n × Fin d) := by exact_mod_cast Fintype.card_pos
    have m1 : 0 ≤ mean (fun i => Real.exp (-(x i ^ 2) / 2)) ∧ mean (fun i => Real.exp (-(x i ^ 2) / 2)) ≤ 1 := by
      unfold mean
      refine ⟨div_nonneg (Finset.sum_nonneg fun i _ => (Real.exp_pos _).le) hcard.le, (div_le_one hcard).2 ?_⟩
      refine (Finset.sum_le_card_nsmul Finset.univ _ 1 fun i _ => ?_).trans (by simp)
      exact Real.exp_le_one_iff.2 (by nlinarith [sq_nonneg (x i)])
    have m2 : |mean (fun i => x i * Real.exp (-x i * x i / 2))| ≤ 2 / 3 := by
      unfold mean
      rw [abs_div, abs_of_pos hcard, div_le_iff₀ hcard]
      refine (Finset.abs_sum_le_sum_abs _ _).trans ((Finset.sum_le_card_nsmul Finset.univ _ (2 / 3) fun i _ => ?_).trans (by simp [mul_comm]))
      rw [abs_mul, Real.abs_exp]
      have h1 : Real.exp (-x i * x i / 2) ≤ 1 / (1 + x i ^ 2 / 2 + (x i ^ 2 / 2) ^ 2 / 2) := by
        rw [show -x i * x i / 2 = -(x i ^ 2 / 2) by ring, Real.exp_neg, ← one_div]
        exact one_div_le_one_div_of_le (by positivity) (Real.quadratic_le_exp_of_nonneg (by positivity))
      refine (mul_le_mul_of_nonneg_left h1 (abs_nonneg _)).trans ?_
      rw [mul_one_div, div_le_iff₀ (by positivity), ← sq_abs (x i)]
      nlinarith [sq_nonneg (|x i| - 1), sq_nonneg (|x i| ^ 2 - 1), abs_nonneg (x i)]
    unfold negentropy mentK1 mentK2 mentCon
    have m3 : mean (fun i => x i * Real.exp (-x i * x i / 2)) ^ 2 ≤ (2 / 3) ^ 2 := by
      rw [← sq_abs]
      exact pow_le_pow_left₀ (abs_nonneg _) m2 2
    set a := mean (fun i => Real.exp (-(x i ^ 2) / 2))
    set b := mean (fun i => x i * Real.exp (-x i * x i / 2))
    refine ⟨by positivity, ?_⟩
    have m4 : (a - 7071067811865476 / 10 ^ 16) ^ 2 ≤ 1 / 2 + 1 / 1000 := by nlinarith
    nlinarith
  obtain ⟨b1, b2⟩ := bound (standard (residual (estimate X W) (flat X)))
  obtain ⟨b3, b4⟩ := bound (standard (residual (estimate X W') (flat X)))
  rw [(c170_pooled hn h0 hl).2.1, (c170_pooled hn h0 hl').2.1]
  have h1 : Real.log (2 * n * l / (n * d - 1)) + 42 ≤ Real.log (2 * n * l' / (n * d - 1)) := by
    have : Real.log (2 * n * l / (n * d - 1) * Real.exp 42) ≤ Real.log (2 * n * l' / (n * d - 1)) := by
      refine Real.log_le_log (by positivity) ?_
      rw [div_mul_eq_mul_div, div_le_div_iff_of_pos_right hc, mul_assoc]
      exact mul_le_mul_of_nonneg_left h (by positivity)
    rwa [Real.log_mul (by positivity) (Real.exp_pos _).ne', Real.log_exp] at this
  linarith

section sample

/-- Data with a cause and an effect: all combinations of values of the cause and of the noise. -/
def pairData (u : Fin 4 → ℝ) (e : Fin 2 → ℝ) (w : ℝ) : Matrix (Fin (4 * 2)) (Fin 2) ℝ := fun s j =>
  if j = 0 then u (finProdFinEquiv.symm s).1 else w * u (finProdFinEquiv.symm s).1 + e (finProdFinEquiv.symm s).2

/-- The values of the cause in c170_model_false. -/
noncomputable def causeV : Fin 4 → ℝ := ![17 / 13, 7 / 13, -7 / 13, -17 / 13]
/-- The values of the noise in c170_model_false. -/
noncomputable def noiseV : Fin 2 → ℝ := ![7 / 25, -7 / 25]
/-- The data of c170_model_false. -/
noncomputable def dataV : Matrix (Fin (4 * 2)) (Fin 2) ℝ := pairData causeV noiseV (24 / 25)

/-- Sums over the entries of the data. -/
theorem sum_data (f : Fin (4 * 2) × Fin 2 → ℝ) :
    ∑ p, f p = ∑ k : Fin 4, ∑ l : Fin 2, (f (finProdFinEquiv (k, l), 0) + f (finProdFinEquiv (k, l), 1)) := by
  rw [Fintype.sum_prod_type, ← finProdFinEquiv.sum_comp, Fintype.sum_prod_type]
  simp only [Fin.sum_univ_two]

/-- The residual of the model. -/
theorem resid_model (k : Fin 4) (l : Fin 2) :
    residual (estimate dataV (edge 0 1 (24 / 25))) (flat dataV) (finProdFinEquiv (k, l), 0) = causeV k ∧
    residual (estimate dataV (edge 0 1 (24 / 25))) (flat dataV) (finProdFinEquiv (k, l), 1) = noiseV l := by
  simp [residual, estimate, flat, dataV, pairData, Matrix.mul_apply, edge]
  ring

/-- The residual of the reversed model. -/
theorem resid_reversed (k : Fin 4) (l : Fin 2) :
    residual (estimate dataV (edge 1 0 (24 / 25))) (flat dataV) (finProdFinEquiv (k, l), 0) = causeV k - 24 / 25 * (24 / 25 * causeV k + noiseV l) ∧
    residual (estimate dataV (edge 1 0 (24 / 25))) (flat dataV) (finProdFinEquiv (k, l), 1) = 24 / 25 * causeV k + noiseV l := by
  simp [residual, estimate, flat, dataV, pairData, Matrix.mul_apply, edge]
  ring

theorem dataV_sum (j : Fin 2) : ∑ s, dataV s j = 0 := by
  rw [← finProdFinEquiv.sum_comp, Fintype.sum_prod_type]
  fin_cases j <;> simp [dataV, pairData, Fin.sum_univ_four, causeV, noiseV] <;> ring

theorem exp_between {y : ℝ} (h0 : 0 ≤ y) (h8 : y ≤ 8) :
    (1 - y / 8 + (y / 8) ^ 2 / 2 - (y / 8) ^ 3 / 6 - (y / 8) ^ 4 * (5 / 96)) ≤ Real.exp (-y / 8) ∧
    Real.exp (-y / 8) ≤ 1 - y / 8 + (y / 8) ^ 2 / 2 - (y / 8) ^ 3 / 6 + (y / 8) ^ 4 * (5 / 96) := by
  have h := Real.exp_bound (x := -y / 8) (n := 4) (by rw [abs_div, abs_neg, abs_of_nonneg h0]; norm_num; linarith) (by decide)
  rw [abs_div, abs_neg, abs_of_nonneg h0, abs_le] at h
  simp only [Finset.sum_range_succ, Finset.sum_range_zero, Nat.factorial] at h
  norm_num at h
  constructor <;> nlinarith

theorem exp_lower {y : ℝ} (h0 : 0 ≤ y) (h8 : y ≤ 8) (hp : 0 ≤ 1 - y / 8 + (y / 8) ^ 2 / 2 - (y / 8) ^ 3 / 6 - (y / 8) ^ 4 * (5 / 96)) :
    (1 - y / 8 + (y / 8) ^ 2 / 2 - (y / 8) ^ 3 / 6 - (y / 8) ^ 4 * (5 / 96)) ^ 8 ≤ Real.exp (-y) := by
  have e : Real.exp (-y) = Real.exp (-y / 8) ^ 8 := by rw [← Real.exp_nat_mul]; congr 1; push_cast; ring
  rw [e]
  exact pow_le_pow_left₀ hp (exp_between h0 h8).1 8

theorem exp_upper {y : ℝ} (h0 : 0 ≤ y) (h8 : y ≤ 8) :
    Real.exp (-y) ≤ (1 - y / 8 + (y / 8) ^ 2 / 2 - (y / 8) ^ 3 / 6 + (y / 8) ^ 4 * (5 / 96)) ^ 8 := by
  have e : Real.exp (-y) = Real.exp (-y / 8) ^ 8 := by rw [← Real.exp_nat_mul]; congr 1; push_cast; ring
  rw [e]
  exact pow_le_pow_left₀ (Real.exp_pos _).le (exp_between h0 h8).2 8

theorem standard_sq {ι : Type} [Fintype ι] [Nonempty ι] (r : ι → ℝ) (i : ι) : standard r i ^ 2 = (r i - mean r) ^ 2 / var r := by
  unfold standard std
  rw [div_pow, Real.sq_sqrt (var_nonneg r)]

/-- Entries that cancel in pairs: the odd moments vanish. -/
theorem odd_zero {r : Fin (4 * 2) × Fin 2 → ℝ} (h : ∀ k l j, r (finProdFinEquiv (Fin.rev k, Fin.rev l), j) = -r (finProdFinEquiv (k, l), j)) {f : ℝ → ℝ}
    (hf : ∀ x, f (-x) = -f x) : mean (fun p => f (r p)) = 0 := by
  unfold mean
  rw [sum_data]
  have h1 : ∑ k : Fin 4, ∑ l : Fin 2, (f (r (finProdFinEquiv (k, l), 0)) + f (r (finProdFinEquiv (k, l), 1))) =
      -∑ k : Fin 4, ∑ l : Fin 2, (f (r (finProdFinEquiv (k, l), 0)) + f (r (finProdFinEquiv (k, l), 1))) := by
    conv_lhs => rw [← Equiv.sum_comp Fin.revPerm]
    simp only [← Finset.sum_neg_distrib]
    refine Finset.sum_congr rfl fun k _ => ?_
    conv_lhs => rw [← Equiv.sum_comp Fin.revPerm]
    refine Finset.sum_congr rfl fun l _ => ?_
    simp only [Fin.revPerm_apply, h, hf]
    ring
  rw [show ∑ k : Fin 4, ∑ l : Fin 2, (f (r (finProdFinEquiv (k, l), 0)) + f (r (finProdFinEquiv (k, l), 1))) = 0 by linarith, zero_div]

theorem causeV_rev (k : Fin 4) : causeV (Fin.rev k) = -causeV k := by
  fin_cases k <;> simp [causeV, Fin.rev] <;> norm_num

theorem noiseV_rev (l : Fin 2) : noiseV (Fin.rev l) = -noiseV l := by
  fin_cases l <;> simp [noiseV, Fin.rev] <;> norm_num

theorem mean_exp {ι : Type} [Fintype ι] [Nonempty ι] {r : ι → ℝ} (hm : mean r = 0) {v : ℝ} (hv : var r = v) :
    mean (fun p => Real.exp (-(standard r p ^ 2) / 2)) = mean (fun p => Real.exp (-(r p ^ 2 / v / 2))) := by
  simp only [standard_sq, hm, hv, sub_zero, neg_div]

theorem var_model : var (residual (estimate dataV (edge 0 1 (24 / 25))) (flat dataV)) = 5392 / 9375 := by
  unfold var
  rw [mean_zero dataV_sum, sum_data]
  simp only [(resid_model _ _).1, (resid_model _ _).2, Fin.sum_univ_four, Fin.sum_univ_two]
  simp [causeV, noiseV]
  norm_num

theorem var_reversed : var (residual (estimate dataV (edge 1 0 (24 / 25))) (flat dataV)) = 5392 / 9375 := by
  unfold var
  rw [mean_zero dataV_sum, sum_data]
  simp only [(resid_reversed _ _).1, (resid_reversed _ _).2, Fin.sum_univ_four, Fin.sum_univ_two]
  simp [causeV, noiseV]
  norm_num

theorem exp_model : 7 / 10 < mean (fun p => Real.exp (-(standard (residual (estimate dataV (edge 0 1 (24 / 25))) (flat dataV)) p ^ 2) / 2)) ∧
    mean (fun p => Real.exp (-(standard (residual (estimate dataV (edge 0 1 (24 / 25))) (flat dataV)) p ^ 2) / 2)) < 72 / 100 := by
  rw [mean_exp (mean_zero dataV_sum _) var_model]
  unfold mean
  rw [sum_data]
  simp only [(resid_model _ _).1, (resid_model _ _).2, Fin.sum_univ_four, Fin.sum_univ_two]
  simp [causeV, noiseV]
  norm_num
  have l0 : 22562 / 100000 ≤ Real.exp (-(2709375 / 1822496)) := le_trans (by norm_num) (exp_lower (y := 2709375 / 1822496) (by norm_num) (by norm_num) (by norm_num))
  have u0 : Real.exp (-(2709375 / 1822496)) ≤ 22665 / 100000 := le_trans (exp_upper (y := 2709375 / 1822496) (by norm_num) (by norm_num)) (by norm_num)
  have l1 : 77668 / 100000 ≤ Real.exp (-(459375 / 1822496)) := le_trans (by norm_num) (exp_lower (y := 459375 / 1822496) (by norm_num) (by norm_num) (by norm_num))
  have u1 : Real.exp (-(459375 / 1822496)) ≤ 77771 / 100000 := le_trans (exp_upper (y := 459375 / 1822496) (by norm_num) (by norm_num)) (by norm_num)
  have l2 : 93360 / 100000 ≤ Real.exp (-(735 / 10784)) := le_trans (by norm_num) (exp_lower (y := 735 / 10784) (by norm_num) (by norm_num) (by norm_num))
  have u2 : Real.exp (-(735 / 10784)) ≤ 93463 / 100000 := le_trans (exp_upper (y := 735 / 10784) (by norm_num) (by norm_num)) (by norm_num)
  constructor <;> linarith

theorem exp_reversed : 727 / 1000 < mean (fun p => Real.exp (-(standard (residual (estimate dataV (edge 1 0 (24 / 25))) (flat dataV)) p ^ 2) / 2)) := by
  rw [mean_exp (mean_zero dataV_sum _) var_reversed]
  unfold mean
  rw [sum_data]
  simp only [(resid_reversed _ _).1, (resid_reversed _ _).2, Fin.sum_univ_four, Fin.sum_univ_two]
  simp [causeV, noiseV]
  norm_num
  have l0 : 97574 / 100000 ≤ Real.exp (-(5475603 / 227812000)) := le_trans (by norm_num) (exp_lower (y := 5475603 / 227812000) (by norm_num) (by norm_num) (by norm_num))
  have l1 : 12700 / 100000 ≤ Real.exp (-(3735015 / 1822496)) := le_trans (by norm_num) (exp_lower (y := 3735015 / 1822496) (by norm_num) (by norm_num) (by norm_num))
  have l2 : 88652 / 100000 ≤ Real.exp (-(27306867 / 227812000)) := le_trans (by norm_num) (exp_lower (y := 27306867 / 227812000) (by norm_num) (by norm_num) (by norm_num))
  have l3 : 43681 / 100000 ≤ Real.exp (-(1507335 / 1822496)) := le_trans (by norm_num) (exp_lower (y := 1507335 / 1822496) (by norm_num) (by norm_num) (by norm_num))
  have l4 : 95583 / 100000 ≤ Real.exp (-(10167843 / 227812000)) := le_trans (by norm_num) (exp_lower (y := 10167843 / 227812000) (by norm_num) (by norm_num) (by norm_num))
  have l5 : 57522 / 100000 ≤ Real.exp (-(1006215 / 1822496)) := le_trans (by norm_num) (exp_lower (y := 1006215 / 1822496) (by norm_num) (by norm_num) (by norm_num))
  have l6 : 91883 / 100000 ≤ Real.exp (-(19157187 / 227812000)) := le_trans (by norm_num) (exp_lower (y := 19157187 / 227812000) (by norm_num) (by norm_num) (by norm_num))
  have l7 : 95186 / 100000 ≤ Real.exp (-(88935 / 1822496)) := le_trans (by norm_num) (exp_lower (y := 88935 / 1822496) (by norm_num) (by norm_num) (by norm_num))
  linarith

theorem odd_model (k : Fin 4) (l j : Fin 2) : standard (residual (estimate dataV (edge 0 1 (24 / 25))) (flat dataV)) (finProdFinEquiv (Fin.rev k, Fin.rev l), j) =
    -standard (residual (estimate dataV (edge 0 1 (24 / 25))) (flat dataV)) (finProdFinEquiv (k, l), j) := by
  unfold standard
  rw [mean_zero dataV_sum]
  have h : j = 0 ∨ j = 1 := by omega
  rcases h with rfl | rfl
  · rw [(resid_model _ _).1, (resid_model _ _).1, causeV_rev]
    ring
  · rw [(resid_model _ _).2, (resid_model _ _).2, noiseV_rev]
    ring

theorem odd_reversed (k : Fin 4) (l j : Fin 2) : standard (residual (estimate dataV (edge 1 0 (24 / 25))) (flat dataV)) (finProdFinEquiv (Fin.rev k, Fin.rev l), j) =
    -standard (residual (estimate dataV (edge 1 0 (24 / 25))) (flat dataV)) (finProdFinEquiv (k, l), j) := by
  unfold standard
  rw [mean_zero dataV_sum]
  have h : j = 0 ∨ j = 1 := by omega
  rcases h with rfl | rfl
  · rw [(resid_reversed _ _).1, (resid_reversed _ _).1, causeV_rev, noiseV_rev]
    ring
  · rw [(resid_reversed _ _).2, (resid_reversed _ _).2, causeV_rev, noiseV_rev]
    ring

theorem mean_four {ι : Type} [Fintype ι] [Nonempty ι] {r : ι → ℝ} (hm : mean r = 0) {v : ℝ} (hv : var r = v) :
    mean (fun p => standard r p ^ 4) = mean (fun p => (r p ^ 2 / v) ^ 2) := by
  have : ∀ p, standard r p ^ 4 = (standard r p ^ 2) ^ 2 := fun p => by ring
  simp only [this, standard_sq, hm, hv, sub_zero]

theorem mean_two {ι : Type} [Fintype ι] [Nonempty ι] {r : ι → ℝ} (hm : mean r = 0) {v : ℝ} (hv : var r = v) :
    mean (fun p => standard r p ^ 2) = mean (fun p => r p ^ 2 / v) := by
  simp only [standard_sq, hm, hv, sub_zero]

theorem k4_lt : k4 (standard (residual (estimate dataV (edge 0 1 (24 / 25))) (flat dataV))) ^ 2 <
    k4 (standard (residual (estimate dataV (edge 1 0 (24 / 25))) (flat dataV))) ^ 2 := by
  unfold k4
  rw [mean_four (mean_zero dataV_sum _) var_model, mean_four (mean_zero dataV_sum _) var_reversed, mean_two (mean_zero dataV_sum _) var_model,
    mean_two (mean_zero dataV_sum _) var_reversed, show (4 / 2 : ℝ) = (2 : ℕ) by norm_num, Real.rpow_natCast, Real.rpow_natCast]
  unfold mean
  rw [sum_data, sum_data, sum_data, sum_data]
  simp only [(resid_model _ _).1, (resid_model _ _).2, (resid_reversed _ _).1, (resid_reversed _ _).2, Fin.sum_univ_four, Fin.sum_univ_two]
  simp [causeV, noiseV]
  norm_num

/-- C170, expected of the losses of the entropy-based search on data that are standardised as in `original`: the model, whose noise is independent of the cause
and not normal, has the least loss. False for `entropy_loss_mentappr`, which is the one used, and for `entropy_loss_high_order`: the data are all combinations of four values of
the cause and two of the noise, both columns have mean 0 and variance 1, and the reversed model has the lesser loss. -/
theorem c170_model_false :
    (∀ k l, dataV (finProdFinEquiv (k, l)) 0 = causeV k ∧ dataV (finProdFinEquiv (k, l)) 1 = 24 / 25 * dataV (finProdFinEquiv (k, l)) 0 + noiseV l) ∧
    (∀ j, (∑ s, dataV s j) / 8 = 0 ∧ (∑ s, dataV s j ^ 2) / 8 = 1) ∧
    mentappr (estimate dataV (edge 1 0 (24 / 25))) (flat dataV) < mentappr (estimate dataV (edge 0 1 (24 / 25))) (flat dataV) ∧
    highOrder (estimate dataV (edge 1 0 (24 / 25))) (flat dataV) < highOrder (estimate dataV (edge 0 1 (24 / 25))) (flat dataV) := by
  refine ⟨fun k l => by simp [dataV, pairData], fun j => ⟨by rw [dataV_sum, zero_div], ?_⟩, ?_, ?_⟩
  · rw [← finProdFinEquiv.sum_comp, Fintype.sum_prod_type]
    fin_cases j <;> simp [dataV, pairData, Fin.sum_univ_four, causeV, noiseV] <;> norm_num
  · have hs : std (residual (estimate dataV (edge 1 0 (24 / 25))) (flat dataV)) = std (residual (estimate dataV (edge 0 1 (24 / 25))) (flat dataV)) := by
      rw [std, std, var_model, var_reversed]
    unfold mentappr
    simp only [hs]
    have h1 := odd_zero odd_model (f := fun x => x * Real.exp (-x * x / 2)) fun x => by simp
    have h2 := odd_zero odd_reversed (f := fun x => x * Real.exp (-x * x / 2)) fun x => by simp
    unfold negentropy
    rw [h1, h2]
    obtain ⟨m1, m2⟩ := exp_model
    have m3 := exp_reversed
    set a := mean (fun p => Real.exp (-(standard (residual (estimate dataV (edge 0 1 (24 / 25))) (flat dataV)) p ^ 2) / 2))
    set b := mean (fun p => Real.exp (-(standard (residual (estimate dataV (edge 1 0 (24 / 25))) (flat dataV)) p ^ 2) / 2))
    have h3 : (a - mentCon) ^ 2 < (b - mentCon) ^ 2 := by
      unfold mentCon
      nlinarith
    have h4 : mentK2 * (a - mentCon) ^ 2 < mentK2 * (b - mentCon) ^ 2 := mul_lt_mul_of_pos_left h3 (by unfold mentK2; norm_num)
    linarith
  · unfold highOrder
    simp only [var_model, var_reversed]
    have h1 : k3 (standard (residual (estimate dataV (edge 0 1 (24 / 25))) (flat dataV))) = 0 := by
      unfold k3
      rw [odd_zero odd_model (f := fun x => x ^ 3) fun x => by ring, zero_div]
    have h2 : k3 (standard (residual (estimate dataV (edge 1 0 (24 / 25))) (flat dataV))) = 0 := by
      unfold k3
      rw [odd_zero odd_reversed (f := fun x => x ^ 3) fun x => by ring, zero_div]
    rw [h1, h2]
    have h3 := k4_lt
    linarith

/-- The data are centred, as c170_pooled and c170_variance need them. -/
example : (∀ j, ∑ s, dataV s j = 0) ∧ ∃ l g, loss realElem .l2 dataV (edge 0 1 (24 / 25)) = some (l, g) := by
  obtain ⟨g, hg⟩ := loss_sq dataV (edge 0 1 (24 / 25))
  exact ⟨dataV_sum, _, g, hg⟩

/-- The hypotheses of c170_decides, for a large wrong weight. -/
example : ∃ W W' l l' g g', loss realElem .l2 dataV W = some (l, g) ∧ loss realElem .l2 dataV W' = some (l', g') ∧ 0 < l ∧ l * Real.exp 42 ≤ l' := by
  have h0 : ip dataV 0 0 = 8 := by
    unfold ip
    rw [← finProdFinEquiv.sum_comp, Fintype.sum_prod_type]
    simp [dataV, pairData, Fin.sum_univ_four, causeV]
    norm_num
  have h1 : ip dataV 1 1 = 8 := by
    unfold ip
    rw [← finProdFinEquiv.sum_comp, Fintype.sum_prod_type]
    simp [dataV, pairData, Fin.sum_univ_four, causeV, noiseV]
    norm_num
  have h2 : ip dataV 0 1 = 192 / 25 := by
    unfold ip
    rw [← finProdFinEquiv.sum_comp, Fintype.sum_prod_type]
    simp [dataV, pairData, Fin.sum_univ_four, causeV, noiseV]
    norm_num
  obtain ⟨g, hg⟩ := loss_sq dataV 0
  obtain ⟨g', hg'⟩ := loss_sq dataV (edge 0 1 (Real.exp 42))
  have e1 : Notears.sq dataV 0 = 1 := by
    rw [sq_two dataV (by decide : (0 : Fin 2) ≠ 1) rfl rfl, h0, h1, h2]
    simp
    norm_num
  have e2 : Notears.sq dataV (edge 0 1 (Real.exp 42)) = (2 - 48 / 25 * Real.exp 42 + Real.exp 42 ^ 2) / 2 := by
    rw [sq_two dataV (by decide : (0 : Fin 2) ≠ 1) (by simp [edge]) (by simp [edge]), h0, h1, h2]
    simp [edge]
    ring
  refine ⟨0, _, _, _, g, g', hg, hg', by rw [e1]; exact one_pos, ?_⟩
  rw [e1, e2]
  have := Real.add_one_le_exp 42
  nlinarith

end sample

end Cdmir.EntLoss
