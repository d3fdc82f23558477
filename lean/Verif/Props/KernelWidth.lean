import Verif.Model.KernelWidth
import Verif.Lemmas.Hsic
import Verif.Props.Kci

/-! C151: the rules for the width of the Gaussian kernel. -/

namespace Cdmir.KTest
open BigOperators

noncomputable section

variable {n d : Nat}

/-- The data with every column `r` times. -/
def repeated (r : Nat) (X : Data n d) : Data n (d * r) := fun i k => X i (finProdFinEquiv.symm k).1

theorem sqDist_repeated (r : Nat) (X : Data n d) (i j : Fin n) : sqDist (repeated r X) i j = r * sqDist X i j := by
  unfold sqDist repeated
  rw [← Equiv.sum_comp finProdFinEquiv]
  simp only [Equiv.symm_apply_apply]
  rw [Fintype.sum_prod_type]
  simp [Finset.mul_sum]

theorem sqDist_nonneg' (X : Data n d) (i j : Fin n) : 0 ≤ sqDist X i j := Finset.sum_nonneg fun _ _ => sq_nonneg _

theorem sqDist_scale (X : Data n d) (a : ℝ) (b : Fin d → ℝ) (i j : Fin n) : sqDist (fun i k => a * X i k + b k) i j = a ^ 2 * sqDist X i j := by
  unfold sqDist
  rw [Finset.mul_sum]
  exact Finset.sum_congr rfl fun k _ => by ring

theorem positiveDists_scale {X : Data n d} {e : Nat} {Y : Data n e} {c : ℝ} (hc : 0 < c) (h : ∀ i j, sqDist Y i j = c ^ 2 * sqDist X i j) (l : List (Fin n)) :
    positiveDists Y l = (positiveDists X l).map (c * ·) := by
  unfold positiveDists
  have hs : ∀ i j, Real.sqrt (sqDist Y i j) = c * Real.sqrt (sqDist X i j) := fun i j => by
    rw [h, Real.sqrt_mul (sq_nonneg c), Real.sqrt_sq hc.le]
  have h1 : (l.flatMap fun i => l.map fun j => Real.sqrt (sqDist Y i j)) = (l.flatMap fun i => l.map fun j => Real.sqrt (sqDist X i j)).map (c * ·) := by
    rw [List.map_flatMap]
    congr 1
    funext i
    rw [List.map_map]
    congr 1
    funext j
    exact hs i j
  rw [h1, List.filter_map]
  congr 2
  funext x
  simp [hc]

theorem gaussian_power {e : Nat} {X : Data n d} {Y : Data n e} {t t' q : ℝ} (h : ∀ i j, sqDist Y i j * t' = q * (sqDist X i j * t)) (i j : Fin n) :
    gaussianWidth t' Y i j = gaussianWidth t X i j ^ q := by
  unfold gaussianWidth
  rw [← Real.exp_mul]
  congr 1
  have := h i j
  linear_combination (-(1 / 2)) * this

theorem kernel_median_scale {e : Nat} {X : Data n d} {Y : Data n e} {c : ℝ} (hc : 0 < c) (h : ∀ i j, sqDist Y i j = c ^ 2 * sqDist X i j) (w w' : ℝ)
    (pp : Equiv.Perm (Fin n)) : callKernel .median w pp Y = callKernel .median w' pp X := by
  unfold callKernel callWidth thetaMedian
  dsimp only
  rw [positiveDists_scale hc h, median_scale _ hc, Option.map_map, Option.map_map, Option.map_map]
  congr 1
  funext m
  ext i j
  simp only [Function.comp, gaussianWidth, h]
  congr 1
  by_cases hm : m = 0
  · simp [hm]
  · have : Real.sqrt 2 ≠ 0 := by positivity
    field_simp

/-- C151: with a width that is a number and, for a fixed width, not negative, the kernel matrix is positive semidefinite, with ones on the diagonal and
entries in (0, 1]. -/
theorem c151_kernel {s : Strategy} {w : ℝ} (hw : s = .manual → 0 ≤ w) {pp : Equiv.Perm (Fin n)} {X : Data n d} {K : Matrix (Fin n) (Fin n) ℝ}
    (h : callKernel s w pp X = some K) : K.PosSemidef ∧ (∀ i, K i i = 1) ∧ ∀ i j, 0 < K i j ∧ K i j ≤ 1 := by
  unfold callKernel at h
  obtain ⟨t, ht, rfl⟩ := Option.map_eq_some_iff.1 h
  have h0 : 0 ≤ t := by
    cases s with
    | manual => rw [← Option.some.inj ht]; exact hw rfl
    | median =>
      obtain ⟨m, -, rfl⟩ := Option.map_eq_some_iff.1 ht
      positivity
    | kci => rw [← Option.some.inj ht]; unfold thetaKci; positivity
    | hsic => rw [← Option.some.inj ht]; unfold thetaHsic; positivity
  refine ⟨gaussianWidth_psd h0 X, fun i => ?_, fun i j => ⟨Real.exp_pos _, ?_⟩⟩
  · simp [gaussianWidth, sqDist]
  · unfold gaussianWidth
    rw [Real.exp_le_one_iff]
    have := mul_nonneg (sqDist_nonneg' X i j) h0
    linarith

/-- C151, the median rule: units do not matter. Data shifted and multiplied by the same number give the same matrix. -/
theorem c151_median_scale (X : Data n d) {a : ℝ} (ha : a ≠ 0) (b : Fin d → ℝ) (w : ℝ) (pp : Equiv.Perm (Fin n)) :
    callKernel .median w pp (fun i k => a * X i k + b k) = callKernel .median w pp X :=
  kernel_median_scale (abs_pos.2 ha) (fun i j => by rw [sqDist_scale, sq_abs]) w w pp

/-- C151, the median rule gives NaN exactly if all rows that are looked at, all of them up to 1000, are the same. -/
theorem c151_median_nan (X : Data n d) (w : ℝ) (pp : Equiv.Perm (Fin n)) : (callKernel .median w pp X = none ↔ ∀ i ∈ taken pp, ∀ j ∈ taken pp, X i = X j) ∧
    (n ≤ 1000 → (callKernel .median w pp X = none ↔ ∀ i j, X i = X j)) := by
  have h : callKernel .median w pp X = none ↔ ∀ i ∈ taken pp, ∀ j ∈ taken pp, X i = X j := by
    unfold callKernel callWidth thetaMedian
    rw [Option.map_eq_none_iff, Option.map_eq_none_iff, median_none]
    unfold positiveDists
    rw [List.filter_eq_nil_iff]
    constructor
    · intro h i hi j hj
      have := h _ (List.mem_flatMap.2 ⟨i, hi, List.mem_map.2 ⟨j, hj, rfl⟩⟩)
      rw [decide_eq_true_iff, Real.sqrt_pos, not_lt] at this
      have h0 : sqDist X i j = 0 := le_antisymm this (sqDist_nonneg' X i j)
      funext k
      have := (Finset.sum_eq_zero_iff_of_nonneg fun k _ => sq_nonneg (X i k - X j k)).1 h0 k (Finset.mem_univ k)
      exact sub_eq_zero.1 (pow_eq_zero_iff two_ne_zero |>.1 this)
    · intro h x hx
      obtain ⟨i, hi, hx⟩ := List.mem_flatMap.1 hx
      obtain ⟨j, hj, rfl⟩ := List.mem_map.1 hx
      simp [sqDist, h i hi j hj]
  refine ⟨h, fun hn => ?_⟩
  rw [h]
  unfold taken
  rw [if_neg (by omega)]
  simp

/-- C151, repeated columns. Under the median rule and the rule for KCI, writing every column `r` times does not change the kernel. -/
theorem c151_repeat {r : Nat} (hr : 0 < r) (X : Data n d) (w : ℝ) (pp : Equiv.Perm (Fin n)) :
    callKernel .median w pp (repeated r X) = callKernel .median w pp X ∧ callKernel .kci w pp (repeated r X) = callKernel .kci w pp X := by
  have hr' : (0 : ℝ) < r := by exact_mod_cast hr
  constructor
  · refine kernel_median_scale (c := Real.sqrt r) (Real.sqrt_pos.2 hr') (fun i j => ?_) w w pp
    rw [sqDist_repeated, Real.sq_sqrt hr'.le]
  · unfold callKernel callWidth
    simp only [Option.map_some, Option.some.injEq]
    ext i j
    unfold gaussianWidth thetaKci
    rw [sqDist_repeated]
    congr 1
    by_cases hd : d = 0
    · subst hd
      simp [sqDist]
    · have : (d : ℝ) ≠ 0 := by exact_mod_cast hd
      dsimp only
      push_cast
      field_simp

/-- C151: expected, the rule for HSIC allows for the number of columns as the one for KCI does. False: it multiplies where it should divide, so that with every
column `r` times each entry becomes its power `r²`. -/
theorem c151_false {r : Nat} (X : Data n d) (w : ℝ) (pp : Equiv.Perm (Fin n)) : ∃ K K', callKernel .hsic w pp X = some K ∧ callKernel .hsic w pp (repeated r X) = some K' ∧
    ∀ i j, K' i j = K i j ^ ((r : ℝ) ^ 2) := by
  refine ⟨_, _, rfl, rfl, fun i j => gaussian_power (fun i j => ?_) i j⟩
  rw [sqDist_repeated]
  unfold thetaHsic
  push_cast
  ring

/-- C151: under the fixed rules units do matter: data multiplied by `a` have each entry to the power `a²`. -/
theorem c151_units {s : Strategy} (hs : s ≠ .median) (X : Data n d) (a : ℝ) (b : Fin d → ℝ) (w : ℝ) (pp : Equiv.Perm (Fin n)) : ∃ K K', callKernel s w pp X = some K ∧
    callKernel s w pp (fun i k => a * X i k + b k) = some K' ∧ ∀ i j, K' i j = K i j ^ (a ^ 2) := by
  cases s with
  | median => exact absurd rfl hs
  | manual => exact ⟨_, _, rfl, rfl, fun i j => gaussian_power (fun i j => by rw [sqDist_scale]; ring) i j⟩
  | kci => exact ⟨_, _, rfl, rfl, fun i j => gaussian_power (fun i j => by rw [sqDist_scale]; ring) i j⟩
  | hsic => exact ⟨_, _, rfl, rfl, fun i j => gaussian_power (fun i j => by rw [sqDist_scale]; ring) i j⟩

/-- C151: the two fixed rules. Both make the kernel narrower with more rows, and for data with a column that of HSIC is the narrower one. -/
theorem c151_rows {n' : Nat} (hn : n ≤ n') (hd : 0 < d) : thetaKci n d ≤ thetaKci n' d ∧ thetaHsic n d ≤ thetaHsic n' d ∧ thetaKci n d < thetaHsic n d := by
  have hd' : (1 : ℝ) ≤ d := by exact_mod_cast hd
  have hd0 : (0 : ℝ) < d := by linarith
  refine ⟨?_, ?_, ?_⟩
  · unfold thetaKci
    refine div_le_div_of_nonneg_right ?_ hd0.le
    split_ifs <;> first | omega | norm_num
  · unfold thetaHsic
    refine mul_le_mul_of_nonneg_right ?_ hd0.le
    split_ifs <;> first | omega | norm_num
  · unfold thetaKci thetaHsic
    refine lt_of_le_of_lt (b := (1 : ℝ) / (if n < 200 then 12 / 10 else if n < 1200 then 7 / 10 else 4 / 10) ^ 2) (div_le_self (by positivity) hd') ?_
    refine lt_of_lt_of_le (b := (1 : ℝ) / (if n < 200 then 8 / 10 else if n < 1200 then 5 / 10 else 3 / 10) ^ 2) ?_ (le_mul_of_one_le_right (by positivity) hd')
    split_ifs <;> norm_num

/-! ### Concrete cases -/

/-- Three rows, one column: 0, 1, 3. -/
def three : Data 3 1 := fun i _ => ![0, 1, 3] i

example : ¬ callKernel .median 1 1 three = none := fun h => by
  have := ((c151_median_nan three 1 1).2 (by norm_num)).1 h 0 1
  have := congrFun this 0
  norm_num [three] at this

example : thetaKci 300 2 = 1 / (7 / 10) ^ 2 / 2 ∧ thetaHsic 300 2 = 1 / (1 / 2) ^ 2 * 2 := by norm_num [thetaKci, thetaHsic]

example := c151_repeat (r := 2) two_pos three 1 1

/-- Twice the column: under the rule for HSIC the entry of rows 0 and 1 falls from `exp(-1/1.28)` to its fourth power. -/
example := c151_false (r := 2) three 1 1

end

end Cdmir.KTest
