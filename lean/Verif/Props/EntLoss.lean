import Verif.Model.EntLoss
import Mathlib.Tactic.Ring
import Mathlib.Tactic.Linarith
import Mathlib.Tactic.NormNum
import Mathlib.Tactic.FieldSimp
import Mathlib.Tactic.FinCases
import Mathlib.Data.Fintype.BigOperators

/-! C136: what the entropy losses of the entropy-based search see of the residual. -/

namespace Cdmir.EntLoss
open BigOperators

variable {ι : Type} [Fintype ι]

theorem mean_affine [Nonempty ι] (r : ι → ℝ) (a c : ℝ) : mean (fun i => a * r i + c) = a * mean r + c := by
  have : (Fintype.card ι : ℝ) ≠ 0 := by exact_mod_cast Fintype.card_ne_zero
  unfold mean
  rw [Finset.sum_add_distrib, ← Finset.mul_sum, Finset.sum_const, Finset.card_univ, nsmul_eq_mul]
  field_simp

theorem var_affine [Nonempty ι] (r : ι → ℝ) (a c : ℝ) : var (fun i => a * r i + c) = a ^ 2 * var r := by
  unfold var
  rw [mean_affine, ← mul_div_assoc, Finset.mul_sum]
  congr 1
  exact Finset.sum_congr rfl fun i _ => by ring

theorem std_affine [Nonempty ι] (r : ι → ℝ) (a c : ℝ) : std (fun i => a * r i + c) = |a| * std r := by
  unfold std
  rw [var_affine, Real.sqrt_mul (sq_nonneg a), Real.sqrt_sq_eq_abs]

theorem standard_affine [Nonempty ι] (r : ι → ℝ) {a : ℝ} (ha : 0 < a) (c : ℝ) : standard (fun i => a * r i + c) = standard r := by
  funext i
  unfold standard
  rw [mean_affine, std_affine, abs_of_pos ha]
  rw [show a * r i + c - (a * mean r + c) = a * (r i - mean r) by ring, mul_div_mul_left _ _ ha.ne']

theorem standard_neg [Nonempty ι] (r : ι → ℝ) : standard (fun i => -1 * r i + 0) = fun i => -standard r i := by
  funext i
  unfold standard
  rw [mean_affine, std_affine, abs_neg, abs_one, one_mul]
  ring

theorem var_nonneg [Nonempty ι] (r : ι → ℝ) : 0 ≤ var r := by
  have : (1 : ℝ) ≤ Fintype.card ι := by exact_mod_cast Fintype.card_pos
  exact div_nonneg (Finset.sum_nonneg fun i _ => sq_nonneg _) (by linarith)

theorem var_standard [Nonempty ι] {r : ι → ℝ} (h : var r ≠ 0) : var (standard r) = 1 := by
  have hp : 0 < var r := lt_of_le_of_ne (var_nonneg r) (Ne.symm h)
  have hs : std r ≠ 0 := (Real.sqrt_pos.2 hp).ne'
  have e : standard r = fun i => (std r)⁻¹ * r i + -(mean r / std r) := by
    funext i; unfold standard; field_simp; ring
  rw [e, var_affine]
  have : std r ^ 2 = var r := Real.sq_sqrt hp.le
  rw [inv_pow, this]
  exact inv_mul_cancel₀ h

/-- A residual with spread: not all of its entries are equal. -/
def Spread (r : ι → ℝ) : Prop := ∃ i j, r i ≠ r j

theorem var_ne_zero {r : ι → ℝ} (h : Spread r) : var r ≠ 0 := by
  obtain ⟨i, j, hij⟩ := h
  have hne : i ≠ j := fun e => hij (by rw [e])
  have hc : (2 : ℝ) ≤ Fintype.card ι := by
    have : 1 < Fintype.card ι := Fintype.one_lt_card_iff.2 ⟨i, j, hne⟩
    exact_mod_cast this
  have hs : 0 < ∑ i, (r i - mean r) ^ 2 := by
    refine lt_of_le_of_ne (Finset.sum_nonneg fun i _ => sq_nonneg _) fun h0 => hij ?_
    have := (Finset.sum_eq_zero_iff_of_nonneg fun i _ => sq_nonneg (r i - mean r)).1 h0.symm
    have h1 := pow_eq_zero_iff (two_ne_zero) |>.1 (this i (Finset.mem_univ i))
    have h2 := pow_eq_zero_iff (two_ne_zero) |>.1 (this j (Finset.mem_univ j))
    linarith
  exact (div_pos hs (by linarith)).ne'

omit [Fintype ι] in
theorem residual_affine (o x : ι → ℝ) (a c : ℝ) : residual (fun i => a * o i - c) (fun i => a * x i) = fun i => a * residual o x i + c := by
  funext i; unfold residual; ring

section
variable [Nonempty ι] (o x : ι → ℝ) {a : ℝ} (c : ℝ)

/-- C136: a constant added to all estimates, and a positive factor on data and estimates, changes `entropy_loss_mentappr` by the logarithm
of the factor, as an entropy should. -/
theorem c136_mentappr (ha : 0 < a) (h : Spread (residual o x)) :
    mentappr (fun i => a * o i - c) (fun i => a * x i) = mentappr o x + Real.log a := by
  have hs : std (residual o x) ≠ 0 := (Real.sqrt_pos.2 (lt_of_le_of_ne (var_nonneg _) (Ne.symm (var_ne_zero h)))).ne'
  unfold mentappr
  simp only [residual_affine]
  rw [standard_affine _ ha, std_affine, abs_of_pos ha, Real.log_mul ha.ne' hs]
  ring

/-- C136: the same for `entropy_loss_high_order`. -/
theorem c136_high_order (ha : 0 < a) (h : Spread (residual o x)) :
    highOrder (fun i => a * o i - c) (fun i => a * x i) = highOrder o x + Real.log a := by
  unfold highOrder
  simp only [residual_affine]
  rw [standard_affine _ ha, var_affine, Real.log_mul (by positivity) (var_ne_zero h), Real.log_pow]
  push_cast
  ring

/-- C136, expected: the losses that add the logarithm of the variance see the scale of the residual. `entropy_loss_G1` and
`entropy_loss_G1_high_order` do not: the variance of the second is taken after standardising, so that its logarithm is always 0. -/
theorem c136_scale_false (ha : 0 < a) (h : Spread (residual o x)) :
    g1 (fun i => a * o i - c) (fun i => a * x i) = g1 o x ∧
      g1HighOrder (fun i => a * o i - c) (fun i => a * x i) = g1HighOrder o x ∧
      Real.log (var (standard (residual o x))) = 0 := by
  unfold g1 g1HighOrder
  simp only [residual_affine]
  rw [standard_affine _ ha]
  exact ⟨rfl, rfl, by rw [var_standard (var_ne_zero h), Real.log_one]⟩

end

theorem mean_odd (x : ι → ℝ) : mean (fun i => -x i) = -mean x := by
  unfold mean
  rw [Finset.sum_neg_distrib, neg_div]

/-- C136: the sign of the residual does not matter: data and estimates can be exchanged. -/
theorem c136_sign [Nonempty ι] (o x : ι → ℝ) :
    mentappr x o = mentappr o x ∧ highOrder x o = highOrder o x ∧ g1 x o = g1 o x ∧ g1HighOrder x o = g1HighOrder o x := by
  have e : residual x o = fun i => -1 * residual o x i + 0 := by funext i; unfold residual; ring
  have hv : var (residual x o) = var (residual o x) := by rw [e, var_affine]; ring
  have hs : std (residual x o) = std (residual o x) := by unfold std; rw [hv]
  have hst : standard (residual x o) = fun i => -standard (residual o x) i := by rw [e]; exact standard_neg _
  set s := standard (residual o x)
  have h3 : k3 (fun i => -s i) ^ 2 = k3 s ^ 2 := by
    unfold k3
    have : mean (fun i => (-s i) ^ 3) = -mean fun i => s i ^ 3 := by
      rw [← mean_odd]; congr 1; funext i; ring
    simp only [this, neg_sq]
    rw [neg_div, neg_sq]
  have h4 : k4 (fun i => -s i) = k4 s := by
    unfold k4
    simp only [neg_sq, show ∀ i, (-s i) ^ 4 = s i ^ 4 from fun i => by ring]
  have hn : negentropy (fun i => -s i) = negentropy s := by
    unfold negentropy
    have : mean (fun i => -s i * Real.exp (-(-s i) * -s i / 2)) = -mean fun i => s i * Real.exp (-s i * s i / 2) := by
      rw [← mean_odd]
      congr 1; funext i
      rw [show -(-s i) * -s i / 2 = -s i * s i / 2 by ring]
      ring
    rw [this]
    simp only [neg_sq]
  refine ⟨?_, ?_, ?_, ?_⟩
  · unfold mentappr
    simp only [hs, hst, hn]
    rfl
  · unfold highOrder
    simp only [hv, hst, h3, h4]
    rfl
  · unfold g1
    simp only [hst, Real.cosh_neg]
    rfl
  · unfold g1HighOrder
    have : var (fun i => -s i) = var s := by
      have := var_affine s (-1) 0
      simpa using this
    simp only [hst, h3, h4, Real.cosh_neg, this]
    rfl

/-- C136: the entries of the residual may be exchanged, across samples and across variables: the losses depend on their joint
histogram only, not on which variable or sample an entry belongs to. -/
theorem c136_perm (σ : Equiv.Perm ι) (o x : ι → ℝ) :
    mentappr (o ∘ σ) (x ∘ σ) = mentappr o x ∧ highOrder (o ∘ σ) (x ∘ σ) = highOrder o x ∧ g1 (o ∘ σ) (x ∘ σ) = g1 o x ∧
      g1HighOrder (o ∘ σ) (x ∘ σ) = g1HighOrder o x := by
  have hm : ∀ r : ι → ℝ, mean (fun i => r (σ i)) = mean r := fun r => by unfold mean; rw [Equiv.sum_comp σ r]
  have hv : ∀ r : ι → ℝ, var (fun i => r (σ i)) = var r := fun r => by
    unfold var; rw [hm, Equiv.sum_comp σ fun i => (r i - mean r) ^ 2]
  have hr : residual (o ∘ σ) (x ∘ σ) = fun i => residual o x (σ i) := rfl
  have hst : standard (residual (o ∘ σ) (x ∘ σ)) = fun i => standard (residual o x) (σ i) := by
    funext i
    rw [hr]
    unfold standard std
    rw [hm, hv]
  set r := residual o x
  set s := standard r with hs
  have h3 : k3 (fun i => s (σ i)) = k3 s := by
    unfold k3; rw [hm fun i => s i ^ 3, hm fun i => s i ^ 2]
  have h4 : k4 (fun i => s (σ i)) = k4 s := by
    unfold k4; rw [hm fun i => s i ^ 4, hm fun i => s i ^ 2]
  have hn : negentropy (fun i => s (σ i)) = negentropy s := by
    unfold negentropy
    rw [hm fun i => Real.exp (-(s i ^ 2) / 2), hm fun i => s i * Real.exp (-s i * s i / 2)]
  have hc : mean (fun i => Real.log (Real.cosh (s (σ i)))) = mean fun i => Real.log (Real.cosh (s i)) := hm fun i => Real.log (Real.cosh (s i))
  refine ⟨?_, ?_, ?_, ?_⟩
  · unfold mentappr std
    simp only [hst, hn]
    simp only [hr, hv]
    rfl
  · unfold highOrder
    simp only [hst, h3, h4]
    simp only [hr, hv]
    rfl
  · unfold g1
    simp only [hst, hc]
    rfl
  · unfold g1HighOrder
    simp only [hst, h3, h4, hv, hc]
    rfl

/-- C136: the losses are at most the value of a Gaussian with the same spread. -/
theorem c136_bound (o x : ι → ℝ) :
    mentappr o x ≤ gaussEntropy + Real.log (std (residual o x)) ∧ highOrder o x ≤ 1 / 2 * Real.log (var (residual o x)) := by
  constructor
  · unfold mentappr
    have : 0 ≤ negentropy (standard (residual o x)) := by
      unfold negentropy mentK1 mentK2
      positivity
    simp only
    linarith
  · unfold highOrder
    simp only
    nlinarith [sq_nonneg (k3 (standard (residual o x))), sq_nonneg (k4 (standard (residual o x)))]

/-- C136: the typed constants are those of the approximation, to twelve digits. -/
theorem c136_constants : |mentK1 - 36 / (8 * Real.sqrt 3 - 9)| < 1 / 10 ^ 12 ∧ |mentK2 - 24 / (16 * Real.sqrt 3 - 27)| < 1 / 10 ^ 12 ∧
    |mentCon - Real.sqrt (1 / 2)| < 1 / 10 ^ 15 := by
  have a1 : (1.7320508075688772 : ℝ) < Real.sqrt 3 := (Real.lt_sqrt (by norm_num)).2 (by norm_num)
  have a2 : Real.sqrt 3 < 1.7320508075688773 := (Real.sqrt_lt' (by norm_num)).2 (by norm_num)
  have b1 : (0.7071067811865475 : ℝ) < Real.sqrt (1 / 2) := (Real.lt_sqrt (by norm_num)).2 (by norm_num)
  have b2 : Real.sqrt (1 / 2) < 0.7071067811865476 := (Real.sqrt_lt' (by norm_num)).2 (by norm_num)
  refine ⟨?_, ?_, ?_⟩
  · have hp : (0 : ℝ) < 8 * Real.sqrt 3 - 9 := by linarith
    rw [abs_lt, mentK1]
    constructor
    · rw [lt_sub_iff_add_lt, ← lt_sub_iff_add_lt', div_lt_iff₀ hp]
      nlinarith
    · rw [sub_lt_comm, lt_div_iff₀ hp]
      nlinarith
  · have hp : (0 : ℝ) < 16 * Real.sqrt 3 - 27 := by linarith
    rw [abs_lt, mentK2]
    constructor
    · rw [lt_sub_iff_add_lt, ← lt_sub_iff_add_lt', div_lt_iff₀ hp]
      nlinarith
    · rw [sub_lt_comm, lt_div_iff₀ hp]
      nlinarith
  · rw [abs_lt, mentCon]
    constructor <;> linarith

/-- C136: there is no best fit: moving the estimates towards the data takes the loss below any bound. -/
theorem c136_unbounded [Nonempty ι] (o x : ι → ℝ) (h : Spread (residual o x)) (B : ℝ) :
    ∃ a, 0 < a ∧ a ≤ 1 ∧ mentappr (fun i => x i - a * (x i - o i)) x < B := by
  have key : ∀ a : ℝ, 0 < a → mentappr (fun i => x i - a * (x i - o i)) x = mentappr o x + Real.log a := by
    intro a ha
    rw [← c136_mentappr o x 0 ha h]
    have e : residual (fun i => x i - a * (x i - o i)) x = residual (fun i => a * o i - 0) (fun i => a * x i) := by
      funext i; unfold residual; ring
    unfold mentappr
    rw [e]
  refine ⟨min 1 (Real.exp (B - mentappr o x - 1)), by positivity, min_le_left _ _, ?_⟩
  rw [key _ (by positivity)]
  have : Real.log (min 1 (Real.exp (B - mentappr o x - 1))) ≤ B - mentappr o x - 1 := by
    rw [← Real.log_exp (B - mentappr o x - 1)]
    exact Real.log_le_log (by positivity) (by rw [Real.log_exp]; exact min_le_right _ _)
  linarith

/-- Two samples of one variable with residuals 0 and 1. -/
example : Spread (residual (fun _ : Fin 2 => (0 : ℝ)) fun i => (i : ℝ)) := ⟨0, 1, by norm_num [residual]⟩

end Cdmir.EntLoss
