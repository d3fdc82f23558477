import Verif.Model.HsicTest
import Mathlib.MeasureTheory.Integral.IntervalIntegral.FundThmCalculus
import Mathlib.Analysis.SpecialFunctions.ExpDeriv
import Mathlib.Analysis.SpecialFunctions.Pow.Deriv
import Mathlib.Algebra.BigOperators.Group.List.Basic

/-! C148: Fisher's method of combining p-values. -/

namespace Cdmir.HsicTest

open Finset MeasureTheory

noncomputable section

/-! ### the distribution function -/

theorem erlang_deriv (K : Nat) (x : ℝ) : HasDerivAt (fun x : ℝ => Real.exp (-(1 / 2 * x)) * ∑ k ∈ range (K + 1), (1 / 2 * x) ^ k / (k.factorial : ℝ))
    (-(1 / 2 * Real.exp (-(1 / 2 * x)) * ((1 / 2 * x) ^ K / (K.factorial : ℝ)))) x := by
  have hl : HasDerivAt (fun x : ℝ => 1 / 2 * x) (1 / 2) x := by simpa using (hasDerivAt_id x).const_mul (1 / 2 : ℝ)
  have he : HasDerivAt (fun x : ℝ => Real.exp (-(1 / 2 * x))) (Real.exp (-(1 / 2 * x)) * -(1 / 2)) x := hl.fun_neg.exp
  induction K with
  | zero =>
    simp only [zero_add, range_one, sum_singleton, pow_zero, Nat.factorial_zero, Nat.cast_one, div_one, mul_one]
    convert he using 1
    ring
  | succ K ih =>
    have hp : HasDerivAt (fun x : ℝ => (1 / 2 * x) ^ (K + 1) / ((K + 1).factorial : ℝ))
        (((K + 1 : ℕ) : ℝ) * (1 / 2 * x) ^ K * (1 / 2) / ((K + 1).factorial : ℝ)) x := by
      have := (hl.fun_pow (K + 1)).div_const ((K + 1).factorial : ℝ)
      simpa using this
    have h := ih.fun_add (he.fun_mul hp)
    have hf : ((K + 1).factorial : ℝ) = (K + 1 : ℝ) * (K.factorial : ℝ) := by rw [Nat.factorial_succ]; push_cast; ring
    have hK : (K.factorial : ℝ) ≠ 0 := by exact_mod_cast K.factorial_ne_zero
    have hK' : (K + 1 : ℝ) ≠ 0 := by positivity
    refine (h.congr_deriv ?_).congr_of_eventuallyEq (Filter.Eventually.of_forall fun y => ?_)
    · rw [hf]
      push_cast
      field_simp
      ring
    · dsimp only
      rw [sum_range_succ _ (K + 1)]
      ring

theorem erlang_cdf (K : Nat) {s : ℝ} (hs : 0 ≤ s) : ProbabilityTheory.cdf (ProbabilityTheory.gammaMeasure ((K + 1 : ℕ) : ℝ) (1 / 2)) s =
    1 - Real.exp (-(1 / 2 * s)) * ∑ k ∈ range (K + 1), (1 / 2 * s) ^ k / (k.factorial : ℝ) := by
  rw [ProbabilityTheory.cdf_gammaMeasure_eq_integral (by positivity) (by norm_num)]
  have h1 : ∫ x in Set.Iic s, ProbabilityTheory.gammaPDFReal ((K + 1 : ℕ) : ℝ) (1 / 2) x =
      ∫ x in Set.Icc 0 s, ProbabilityTheory.gammaPDFReal ((K + 1 : ℕ) : ℝ) (1 / 2) x := by
    refine setIntegral_eq_of_subset_of_forall_sdiff_eq_zero measurableSet_Iic (fun x hx => hx.2) fun x hx => ?_
    unfold ProbabilityTheory.gammaPDFReal
    rw [if_neg fun h => hx.2 ⟨h, hx.1⟩]
  have h2 : ∫ x in Set.Icc 0 s, ProbabilityTheory.gammaPDFReal ((K + 1 : ℕ) : ℝ) (1 / 2) x =
      ∫ x in Set.Icc 0 s, 1 / 2 * Real.exp (-(1 / 2 * x)) * ((1 / 2 * x) ^ K / (K.factorial : ℝ)) := by
    refine setIntegral_congr_fun measurableSet_Icc fun x hx => ?_
    unfold ProbabilityTheory.gammaPDFReal
    rw [if_pos hx.1, Real.rpow_natCast, show (((K + 1 : ℕ) : ℝ) - 1) = (K : ℝ) by push_cast; ring, Real.rpow_natCast,
      show (((K + 1 : ℕ) : ℝ)) = (K : ℝ) + 1 by push_cast; ring, Real.Gamma_nat_eq_factorial, mul_pow]
    have hK : (K.factorial : ℝ) ≠ 0 := by exact_mod_cast K.factorial_ne_zero
    field_simp
    ring
  rw [h1, h2, integral_Icc_eq_integral_Ioc, ← intervalIntegral.integral_of_le hs]
  have hd : ∀ x ∈ Set.uIcc 0 s, HasDerivAt (fun x : ℝ => -(Real.exp (-(1 / 2 * x)) * ∑ k ∈ range (K + 1), (1 / 2 * x) ^ k / (k.factorial : ℝ)))
      (1 / 2 * Real.exp (-(1 / 2 * x)) * ((1 / 2 * x) ^ K / (K.factorial : ℝ))) x := fun x _ => by
    have := (erlang_deriv K x).fun_neg
    rwa [neg_neg] at this
  rw [intervalIntegral.integral_eq_sub_of_hasDerivAt hd]
  · have : ∑ k ∈ range (K + 1), (1 / 2 * (0 : ℝ)) ^ k / (k.factorial : ℝ) = 1 := by
      rw [sum_range_succ', sum_eq_zero]
      · simp
      · intro k _
        simp
    rw [this]
    simp
    ring
  · apply Continuous.intervalIntegrable
    fun_prop

/-! ### the combined p-value -/

/-- What the loop does with a p-value of zero. -/
def lifted (p : ℝ) : ℝ := if p = 0 then 1 / 100000 else p

theorem lifted_pos {p : ℝ} (h : 0 ≤ p) : 0 < lifted p := by
  unfold lifted
  split
  · norm_num
  · exact lt_of_le_of_ne h (Ne.symm (by assumption))

theorem fisherStat_ok : ∀ {l : List ℝ}, (∀ p ∈ l, 0 ≤ p) → fisherStat l = .ok (-2 * (l.map fun p => Real.log (lifted p)).sum)
  | [], _ => by simp [fisherStat]; rfl
  | p :: l, h => by
    have hp := lifted_pos (h p (by simp))
    have ih := fisherStat_ok (l := l) fun q hq => h q (by simp [hq])
    unfold fisherStat
    have : ¬ (if p = 0 then (1 : ℝ) / 100000 else p) ≤ 0 := not_le.2 hp
    simp only [if_neg this]
    rw [ih]
    change Except.ok _ = Except.ok _
    congr 1
    rw [List.map_cons, List.sum_cons]
    unfold lifted
    ring

theorem fisherStat_err : ∀ {l : List ℝ}, (∃ p ∈ l, p < 0) → fisherStat l = .error .value
  | p :: l, ⟨q, hq, hn⟩ => by
    unfold fisherStat
    dsimp only
    by_cases hp : (if p = 0 then (1 : ℝ) / 100000 else p) ≤ 0
    · rw [if_pos hp]; rfl
    · rw [if_neg hp]
      have : q ∈ l := by
        rcases List.mem_cons.1 hq with rfl | h
        · exact absurd (show (if q = 0 then (1 : ℝ) / 100000 else q) ≤ 0 by rw [if_neg hn.ne]; exact hn.le) hp
        · exact h
      rw [fisherStat_err ⟨q, this, hn⟩]
      rfl

theorem log_sum {l : List ℝ} (h : ∀ p ∈ l, 0 < p) : (l.map Real.log).sum = Real.log l.prod := by
  induction l with
  | nil => simp
  | cons p l ih =>
    have hp := h p (by simp)
    have hl : 0 < l.prod := List.prod_pos fun q hq => h q (by simp [hq])
    rw [List.map_cons, List.sum_cons, ih fun q hq => h q (by simp [hq]), List.prod_cons, Real.log_mul hp.ne' hl.ne']

theorem prod_le_one' {l : List ℝ} (h0 : ∀ p ∈ l, 0 < p) (h1 : ∀ p ∈ l, p ≤ 1) : l.prod ≤ 1 := by
  induction l with
  | nil => simp
  | cons p l ih =>
    rw [List.prod_cons]
    exact mul_le_one₀ (h1 p (by simp)) (List.prod_pos fun q hq => h0 q (by simp [hq])).le
      (ih (fun q hq => h0 q (by simp [hq])) fun q hq => h1 q (by simp [hq]))

/-- The combined p-value of `L` p-values whose product is `t`: the probability that a product of `L` uniform numbers is at most `t`. -/
def combined (L : Nat) (t : ℝ) : ℝ := t * ∑ k ∈ range L, (-Real.log t) ^ k / (k.factorial : ℝ)

theorem fisher_pos {l : List ℝ} (hl : l ≠ []) (h0 : ∀ p ∈ l, 0 ≤ p) (h1 : (l.map lifted).prod ≤ 1) (alph : ℝ) :
    fisherTest l alph = .ok (decide (alph < combined l.length (l.map lifted).prod), some (combined l.length (l.map lifted).prod)) := by
  obtain ⟨K, hK⟩ := Nat.exists_eq_succ_of_ne_zero (fun h => hl (List.length_eq_zero_iff.1 h))
  have hpos : ∀ q ∈ l.map lifted, 0 < q := fun q hq => by
    obtain ⟨p, hp, rfl⟩ := List.mem_map.1 hq
    exact lifted_pos (h0 p hp)
  have hprod : 0 < (l.map lifted).prod := List.prod_pos hpos
  have hs : (l.map fun p => Real.log (lifted p)).sum = Real.log (l.map lifted).prod := by
    rw [← log_sum hpos, List.map_map]
    rfl
  have hlog : Real.log (l.map lifted).prod ≤ 0 := Real.log_nonpos hprod.le h1
  have hc : chi2Cdf l.length (-2 * Real.log (l.map lifted).prod) = some (1 - combined l.length (l.map lifted).prod) := by
    unfold chi2Cdf
    rw [hK, if_neg (Nat.succ_ne_zero K)]
    congr 1
    rw [erlang_cdf K (by linarith)]
    unfold combined
    rw [show -(1 / 2 * (-2 * Real.log (l.map lifted).prod)) = Real.log (l.map lifted).prod by ring, Real.exp_log hprod,
      show 1 / 2 * (-2 * Real.log (l.map lifted).prod) = -Real.log (l.map lifted).prod by ring]
  unfold fisherTest
  rw [fisherStat_ok h0, hs]
  change Except.ok _ = _
  simp only [hc, Option.map_some, sub_sub_cancel]

/-- C148: p-values above 0 and at most 1 are combined into the probability that the product of as many independent uniform numbers is at most their product
`t`, which is `t ∑ (-log t)^k / k!`, with as many terms as p-values; the answer is `True` if this is above `alph`. -/
theorem c148_value {l : List ℝ} (hl : l ≠ []) (h0 : ∀ p ∈ l, 0 < p) (h1 : ∀ p ∈ l, p ≤ 1) (alph : ℝ) :
    fisherTest l alph = .ok (decide (alph < l.prod * ∑ k ∈ range l.length, (-Real.log l.prod) ^ k / (k.factorial : ℝ)),
      some (l.prod * ∑ k ∈ range l.length, (-Real.log l.prod) ^ k / (k.factorial : ℝ))) := by
  have e : l.map lifted = l := by
    conv_rhs => rw [← List.map_id l]
    exact List.map_congr_left fun p hp => by
      unfold lifted
      rw [if_neg (h0 p hp).ne']
      rfl
  have hp : (l.map lifted).prod ≤ 1 := by
    rw [e]
    exact prod_le_one' h0 h1
  have := fisher_pos hl (fun p hp => (h0 p hp).le) hp alph
  rw [e] at this
  exact this

/-- C148: a single p-value is returned as it is; it must not be zero. -/
theorem c148_single {p : ℝ} (h0 : 0 < p) (h1 : p ≤ 1) (alph : ℝ) : fisherTest [p] alph = .ok (decide (alph < p), some p) := by
  have := c148_value (l := [p]) (by simp) (by simpa using h0) (by simpa using h1) alph
  simpa using this

/-- C148: two p-values give `p q (1 - log (p q))`. -/
theorem c148_pair {p q : ℝ} (hp : 0 < p) (hp1 : p ≤ 1) (hq : 0 < q) (hq1 : q ≤ 1) (alph : ℝ) :
    fisherTest [p, q] alph = .ok (decide (alph < p * q * (1 - Real.log (p * q))), some (p * q * (1 - Real.log (p * q)))) := by
  have := c148_value (l := [p, q]) (by simp) (by simpa using ⟨hp, hq⟩) (by simpa using ⟨hp1, hq1⟩) alph
  simpa [sum_range_succ, sub_eq_add_neg] using this

/-- C148: the test raises exactly for a negative p-value (`ValueError`); for no p-values it says dependent, with NaN. -/
theorem c148_raises (l : List ℝ) (alph : ℝ) : ((∃ r, fisherTest l alph = .ok r) ↔ ∀ p ∈ l, 0 ≤ p) ∧
    ((∃ p ∈ l, p < 0) → fisherTest l alph = .error .value) ∧ fisherTest [] alph = .ok (false, none) := by
  have h2 : (∃ p ∈ l, p < 0) → fisherTest l alph = .error .value := fun h => by
    unfold fisherTest
    rw [fisherStat_err h]
    rfl
  refine ⟨⟨fun ⟨r, hr⟩ p hp => ?_, fun h => ?_⟩, h2, ?_⟩
  · by_contra hn
    rw [h2 ⟨p, hp, not_le.1 hn⟩] at hr
    cases hr
  · unfold fisherTest
    rw [fisherStat_ok h]
    exact ⟨_, rfl⟩
  · simp [fisherTest, fisherStat, chi2Cdf]
    rfl

/-- C148: the order of the p-values does not matter. -/
theorem c148_order {l l' : List ℝ} (h : l.Perm l') (alph : ℝ) : fisherTest l alph = fisherTest l' alph := by
  by_cases hp : ∀ p ∈ l, 0 ≤ p
  · have hp' : ∀ p ∈ l', 0 ≤ p := fun p hp' => hp p (h.mem_iff.2 hp')
    unfold fisherTest
    rw [fisherStat_ok hp, fisherStat_ok hp', (h.map _).sum_eq, h.length_eq]
  · push Not at hp
    obtain ⟨p, hm, hn⟩ := hp
    rw [(c148_raises l alph).2.1 ⟨p, hm, hn⟩, (c148_raises l' alph).2.1 ⟨p, h.mem_iff.1 hm, hn⟩]

/-- C148: the combined p-value lies between 0 and 1. -/
theorem c148_range {l : List ℝ} {alph : ℝ} {a : Bool} {p : ℝ} (h : fisherTest l alph = .ok (a, some p)) :
    0 ≤ p ∧ p ≤ 1 ∧ (a = true ↔ alph < p) := by
  unfold fisherTest at h
  cases e : fisherStat l with
  | error x => rw [e] at h; cases h
  | ok s =>
    rw [e] at h
    have h := Except.ok.inj h
    unfold chi2Cdf at h
    by_cases hl : l.length = 0
    · simp [hl] at h
    · simp only [if_neg hl, Option.map_some, Prod.mk.injEq, Option.some.injEq] at h
      obtain ⟨rfl, rfl⟩ := h
      have := ProbabilityTheory.cdf_le_one (ProbabilityTheory.gammaMeasure l.length (1 / 2)) s
      have := ProbabilityTheory.cdf_nonneg (ProbabilityTheory.gammaMeasure l.length (1 / 2)) s
      exact ⟨by linarith, by linarith, by simp⟩

/-- C148: larger p-values, none of them zero, give a larger combined one. -/
theorem c148_monotone {l l' : List ℝ} (h : List.Forall₂ (· ≤ ·) l l') (h0 : ∀ p ∈ l, 0 < p) {alph : ℝ} {a a' : Bool} {p p' : ℝ}
    (e : fisherTest l alph = .ok (a, some p)) (e' : fisherTest l' alph = .ok (a', some p')) : p ≤ p' := by
  have hlen : l.length = l'.length := h.length_eq
  have h0' : ∀ p ∈ l', 0 < p := by
    clear e e'
    induction h with
    | nil => simp
    | cons hab _ ih =>
      intro p hp
      rcases List.mem_cons.1 hp with rfl | hp
      · exact lt_of_lt_of_le (h0 _ (by simp)) hab
      · exact ih (fun p hp => h0 p (by simp [hp])) (by simpa using hlen) p hp
  have hsum : (l.map fun p => Real.log (lifted p)).sum ≤ (l'.map fun p => Real.log (lifted p)).sum := by
    clear e e' hlen
    induction h with
    | nil => simp
    | @cons x y l l' hab _ ih =>
      have hx := h0 x (by simp)
      have hy := h0' y (by simp)
      simp only [List.map_cons, List.sum_cons]
      refine add_le_add ?_ (ih (fun p hp => h0 p (by simp [hp])) (fun p hp => h0' p (by simp [hp])))
      unfold lifted
      rw [if_neg hx.ne', if_neg hy.ne']
      exact Real.log_le_log hx hab
  unfold fisherTest at e e'
  rw [fisherStat_ok fun p hp => (h0 p hp).le] at e
  rw [fisherStat_ok fun p hp => (h0' p hp).le, ← hlen] at e'
  have e := Except.ok.inj e
  have e' := Except.ok.inj e'
  unfold chi2Cdf at e e'
  by_cases hl : l.length = 0
  · simp [hl] at e
  · simp only [if_neg hl, Option.map_some, Prod.mk.injEq, Option.some.injEq] at e e'
    obtain ⟨-, rfl⟩ := e
    obtain ⟨-, rfl⟩ := e'
    have := ProbabilityTheory.monotone_cdf (ProbabilityTheory.gammaMeasure l.length (1 / 2)) (by linarith :
      -2 * (l'.map fun p => Real.log (lifted p)).sum ≤ -2 * (l.map fun p => Real.log (lifted p)).sum)
    linarith

/-- C148: expected, stronger evidence never gives a larger combined p-value. False: a p-value of zero counts as 0.00001, so that it is combined into a larger value than one
of 10⁻⁹, and a single zero is returned as 0.00001. -/
theorem c148_false : ∃ a b : ℝ, fisherTest [0] (1 / 100) = .ok (false, some a) ∧ fisherTest [1 / 1000000000] (1 / 100) = .ok (false, some b) ∧ b < a ∧
    a = 1 / 100000 := by
  have h := fisher_pos (l := [0]) (by simp) (by simp) (by norm_num [lifted]) (1 / 100)
  refine ⟨1 / 100000, 1 / 1000000000, ?_, ?_, by norm_num, rfl⟩
  · rw [h]
    norm_num [combined, lifted]
  · rw [c148_single (by norm_num) (by norm_num)]
    norm_num

/-! ### Concrete cases -/

example := c148_value (l := [1 / 2, 1 / 3, 1]) (by simp) (by norm_num) (by norm_num) (1 / 100)
example : fisherTest [1, 1, 1] (1 / 100) = .ok (true, some 1) := by
  rw [c148_value (by simp) (by norm_num) (by norm_num)]
  norm_num [sum_range_succ]
example := c148_pair (p := 1 / 2) (q := 1 / 3) (by norm_num) (by norm_num) (by norm_num) (by norm_num) (1 / 100)
example := c148_order (List.Perm.swap (1 / 2 : ℝ) (1 / 3) [1]) (1 / 100)
example : List.Forall₂ (· ≤ ·) [(1 : ℝ) / 3, 1 / 2] [1 / 2, 1] := by norm_num

end

end Cdmir.HsicTest
