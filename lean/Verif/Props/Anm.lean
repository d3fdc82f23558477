import Verif.Props.Hsic

/-! C86: the scores of the additive noise model (`ANM.py`). -/

namespace Cdmir.KTest
open BigOperators

variable {n d e : Nat}

/-- The statistic once the kernels are known. -/
noncomputable def fastOf : Option (Matrix (Fin n) (Fin n) ℝ) → Option (Matrix (Fin n) (Fin n) ℝ) → ℝ
  | some K, some L => 1 / (n : ℝ) * ∑ i, ∑ j, center K j i * center L i j
  | _, _ => 0

theorem fastHsicOf_eq (X : Data n d) (Y : Data n e) : fastHsicOf X Y = fastOf (kernelOf X) (kernelOf Y) := by
  unfold fastHsicOf kernelOf fastOf
  cases width X <;> cases width Y <;> rfl

theorem fastOf_none (K : Option (Matrix (Fin n) (Fin n) ℝ)) : fastOf K none = 0 := by cases K <;> rfl

theorem fastOf_symm (X : Data n d) (Y : Data n e) : fastOf (kernelOf X) (kernelOf Y) = fastOf (kernelOf Y) (kernelOf X) := by
  cases hX : kernelOf X with
  | none => rw [fastOf_none]; rfl
  | some K =>
    cases hY : kernelOf Y with
    | none => rfl
    | some L =>
      have h1 := psd_symm (center_psd (kernelOf_some hX).1)
      have h2 := psd_symm (center_psd (kernelOf_some hY).1)
      simp only [fastOf]
      congr 1
      refine Finset.sum_congr rfl fun i _ => Finset.sum_congr rfl fun j _ => ?_
      rw [h1 j i, h2 j i, mul_comm]

theorem fastOf_nonneg (X : Data n d) (Y : Data n e) : 0 ≤ fastOf (kernelOf X) (kernelOf Y) := by
  cases hX : kernelOf X with
  | none => exact le_refl _
  | some K =>
    cases hY : kernelOf Y with
    | none => rw [fastOf_none]
    | some L =>
      have h1 := center_psd (kernelOf_some hX).1
      have h2 := center_psd (kernelOf_some hY).1
      have h3 := stat_nonneg h1 h2
      have h4 : ∑ i, ∑ j, center K j i * center L i j = hsicStat (center K) (center L) :=
        Finset.sum_congr rfl fun i _ => Finset.sum_congr rfl fun j _ => by rw [psd_symm h1 j i]
      simp only [fastOf]
      rw [h4]
      positivity

theorem normAll_none {X : Data n d} (h : normAll X = none) (i j : Fin n) : X i = X j := by
  funext k
  unfold normAll at h
  simp only at h
  split at h
  · rename_i hv
    have hn : n ≠ 0 := by rintro rfl; exact i.elim0
    have hd : d ≠ 0 := by rintro rfl; exact k.elim0
    have hn' : (n : ℝ) * d ≠ 0 := by exact_mod_cast Nat.mul_ne_zero hn hd
    rw [div_eq_zero_iff, or_iff_left hn'] at hv
    have key : ∀ i k, (X i k - (∑ i, ∑ k, X i k) / ((n : ℝ) * d)) = 0 := by
      intro i k
      have h1 := (Finset.sum_eq_zero_iff_of_nonneg (fun i _ => Finset.sum_nonneg fun k _ => sq_nonneg _)).1 hv i (Finset.mem_univ i)
      have h2 := (Finset.sum_eq_zero_iff_of_nonneg (fun k _ => sq_nonneg _)).1 h1 k (Finset.mem_univ k)
      exact pow_eq_zero_iff two_ne_zero |>.1 h2
    have h1 := key i k
    have h2 := key j k
    linarith
  · cases h

theorem normAll_some {X Z : Data n d} (h : normAll X = some Z) : ∃ c, 0 < c ∧ ∀ i j, sqDist Z i j = c * sqDist X i j := by
  unfold normAll at h
  simp only at h
  split at h
  · cases h
  · rename_i hv
    cases h
    have hv0 : 0 ≤ (∑ i, ∑ k, (X i k - (∑ i, ∑ k, X i k) / ((n : ℝ) * d)) ^ 2) / ((n : ℝ) * d) :=
      div_nonneg (Finset.sum_nonneg fun i _ => Finset.sum_nonneg fun k _ => sq_nonneg _) (by positivity)
    have hv1 := lt_of_le_of_ne hv0 (Ne.symm hv)
    refine ⟨_, inv_pos.2 hv1, fun i j => ?_⟩
    unfold sqDist
    rw [Finset.mul_sum]
    refine Finset.sum_congr rfl fun k _ => ?_
    rw [← sub_div, div_pow, Real.sq_sqrt hv0, sub_sub_sub_cancel_right]
    ring

theorem kernelOf_take (l : List (Fin n)) {X : Data n d} {X' : Data n e} {c : ℝ} (hc : 0 < c) (h : ∀ i j, sqDist X' i j = c * sqDist X i j) :
    kernelOf (take l X') = kernelOf (take l X) :=
  kernelOf_scale hc fun i j => h (l.get i) (l.get j)

theorem kernelOf_take_none (l : List (Fin n)) {X : Data n d} (h : ∀ i j, X i = X j) : kernelOf (take l X) = none :=
  kernelOf_none.2 fun i j => h (l.get i) (l.get j)

/-- Normalising before the kernels are built has no effect. -/
theorem normalizedHsic_eq (X : Data n d) (Y : Data n e) :
    normalizedHsic X Y = fastOf (kernelOf (take (rows n 2000) X)) (kernelOf (take (rows n 2000) Y)) := by
  unfold normalizedHsic
  cases hX : normAll X with
  | none =>
    rw [kernelOf_take_none _ (normAll_none hX)]
    rfl
  | some X' =>
    cases hY : normAll Y with
    | none =>
      rw [kernelOf_take_none _ (normAll_none hY), fastOf_none]
    | some Y' =>
      obtain ⟨c, hc, h1⟩ := normAll_some hX
      obtain ⟨c', hc', h2⟩ := normAll_some hY
      rw [← kernelOf_take _ hc h1, ← kernelOf_take _ hc' h2, ← fastHsicOf_eq]
      rfl

theorem flat_eq (g y : Fin n → ℝ) (l : List (Fin n)) : kernelOf (take l (fun i j => g j - y i : Data n n)) = kernelOf (take l (col y)) := by
  by_cases hn : n = 0
  · subst hn
    rw [kernelOf_take_none l (fun i => i.elim0), kernelOf_take_none l (fun i => i.elim0)]
  · have hn' : (0 : ℝ) < n := by exact_mod_cast Nat.pos_of_ne_zero hn
    refine kernelOf_take l hn' fun i j => ?_
    have h1 : sqDist (fun i j => g j - y i : Data n n) i j = ∑ _k : Fin n, (y i - y j) ^ 2 := by
      unfold sqDist
      exact Finset.sum_congr rfl fun k _ => by ring
    have h2 : sqDist (col y) i j = (y i - y j) ^ 2 := by
      simp [sqDist, col]
    rw [h1, h2]
    simp

/-- C86 fails with every scikit-learn whose `predict` returns an array of shape `(n,)`: for all data and all predictions the score of the one direction
is the score of the other direction, because the predictions have no influence: both are the HSIC statistic of `x` and `y` themselves. -/
theorem c86_false (gp : (Fin n → ℝ) → (Fin n → ℝ) → Fin n → ℝ) (x y : Fin n → ℝ) :
    (causeOrEffect (anmScoreFlat gp) x y).1 = (causeOrEffect (anmScoreFlat gp) x y).2 ∧
    (causeOrEffect (anmScoreFlat gp) x y).1 = normalizedHsic (col (scale x)) (col (scale y)) := by
  have key : ∀ a b : Fin n → ℝ, anmScoreFlat gp a b = normalizedHsic (col a) (col b) := by
    intro a b
    unfold anmScoreFlat
    rw [normalizedHsic_eq, normalizedHsic_eq, flat_eq, fastOf_symm]
  have hsym : ∀ a b : Fin n → ℝ, normalizedHsic (col a) (col b) = normalizedHsic (col b) (col a) := by
    intro a b
    rw [normalizedHsic_eq, normalizedHsic_eq, fastOf_symm]
  exact ⟨(key _ _).trans ((hsym _ _).trans (key _ _).symm), key _ _⟩

/-- C86, what holds with an older scikit-learn. The full statement is "the score of a direction is the HSIC statistic of the residual and the cause,
for every version"; it is false (`c86_false`). The scores are not negative, and they depend on nothing but the cause and the
residual: they do not change if the cause is shifted and scaled, the residual is scaled, and the effect is anything that gives this residual; they are
0 if the cause or the residual is constant. -/
theorem c86_partial (gp : (Fin n → ℝ) → (Fin n → ℝ) → Fin n → ℝ) (x y : Fin n → ℝ) :
    0 ≤ anmScoreCol gp x y ∧
    (∀ (a b c : ℝ) (x' y' : Fin n → ℝ) (gp' : (Fin n → ℝ) → (Fin n → ℝ) → Fin n → ℝ), a ≠ 0 → c ≠ 0 → (∀ i, x' i = a * x i + b) →
      (∀ i, gp' x' y' i - y' i = c * (gp x y i - y i)) → anmScoreCol gp' x' y' = anmScoreCol gp x y) ∧
    ((∀ i j, x i = x j) ∨ (∀ i j, gp x y i - y i = gp x y j - y j) → anmScoreCol gp x y = 0) := by
  unfold anmScoreCol
  refine ⟨by rw [normalizedHsic_eq]; exact fastOf_nonneg _ _, fun a b c x' y' gp' ha hc hx h => ?_, fun h => ?_⟩
  · rw [normalizedHsic_eq, normalizedHsic_eq]
    congr 1
    · refine kernelOf_take _ (c := c ^ 2) (by positivity) fun i j => ?_
      simp only [sqDist, col, h, Finset.mul_sum]
      exact Finset.sum_congr rfl fun k _ => by ring
    · refine kernelOf_take _ (c := a ^ 2) (by positivity) fun i j => ?_
      simp only [sqDist, col, hx, Finset.mul_sum]
      exact Finset.sum_congr rfl fun k _ => by ring
  · rw [normalizedHsic_eq]
    rcases h with h | h
    · rw [kernelOf_take_none _ (X := col x) fun i j => by funext k; exact h i j, fastOf_none]
    · rw [kernelOf_take_none _ (X := col fun i => gp x y i - y i) fun i j => by funext k; exact h i j]
      rfl

theorem scale_affine (x : Fin n → ℝ) {a : ℝ} (ha : 0 < a) (b : ℝ) : scale (fun i => a * x i + b) = scale x := by
  funext i
  have hn : n ≠ 0 := by rintro rfl; exact i.elim0
  have hn' : (0 : ℝ) < n := by exact_mod_cast Nat.pos_of_ne_zero hn
  unfold scale
  simp only
  rw [devs_affine hn, mean_affine hn, mul_div_assoc, Real.sqrt_mul (sq_nonneg a), Real.sqrt_sq ha.le]
  by_cases hs : Real.sqrt (devs x / n) = 0
  · rw [if_pos (by rw [hs, mul_zero]), if_pos hs]
    rw [Real.sqrt_eq_zero (div_nonneg (devs_nonneg x) hn'.le), div_eq_zero_iff, or_iff_left hn'.ne'] at hs
    have h1 : x i - mean x = 0 := by
      unfold devs at hs
      have := (Finset.sum_eq_zero_iff_of_nonneg (fun _ _ => sq_nonneg _)).1 hs i (Finset.mem_univ i)
      exact pow_eq_zero_iff two_ne_zero |>.1 this
    rw [h1]
    have : a * x i + b - (a * mean x + b) = a * (x i - mean x) := by ring
    rw [this, h1]
    ring
  · rw [if_neg (mul_ne_zero ha.ne' hs), if_neg hs]
    have : a * x i + b - (a * mean x + b) = a * (x i - mean x) := by ring
    rw [this, mul_div_mul_left _ _ ha.ne']

/-- C87. The two scores do not change if a variable is shifted or multiplied by a positive number, for any score function; and if the variables are
exchanged the two scores are exchanged. -/
theorem c87_units (score : (Fin n → ℝ) → (Fin n → ℝ) → ℝ) (x y : Fin n → ℝ) {a c : ℝ} (ha : 0 < a) (hc : 0 < c) (b d : ℝ) :
    causeOrEffect score (fun i => a * x i + b) (fun i => c * y i + d) = causeOrEffect score x y ∧
    causeOrEffect score y x = (causeOrEffect score x y).swap := by
  unfold causeOrEffect
  rw [scale_affine x ha, scale_affine y hc]
  exact ⟨rfl, rfl⟩

theorem kept_eq {m q : Nat} (hq : 2 ≤ q) (hm : q < m) : kept m q = (List.range q).map fun k => k * (m - 1) / (q - 1) := by
  unfold kept
  rw [List.filter_map]
  congr 1
  have hiff : ∀ k, k * (m - 1) / (q - 1) < m ↔ k < q := by
    intro k
    rw [Nat.div_lt_iff_lt_mul (by omega)]
    obtain ⟨q, rfl⟩ : ∃ p, q = p + 2 := ⟨q - 2, by omega⟩
    obtain ⟨r, rfl⟩ : ∃ r, m = q + 2 + r + 1 := ⟨m - (q + 2) - 1, by omega⟩
    constructor
    · intro h
      by_contra hk
      have : (q + 2) * (q + 2 + r + 1 - 1) ≤ k * (q + 2 + r + 1 - 1) := Nat.mul_le_mul_right _ (by omega)
      simp only [Nat.add_sub_cancel] at *
      have e1 : q + 2 - 1 = q + 1 := by omega
      rw [e1] at h
      nlinarith
    · intro hk
      have : k * (q + 2 + r + 1 - 1) ≤ (q + 1) * (q + 2 + r + 1 - 1) := Nat.mul_le_mul_right _ (by omega)
      simp only [Nat.add_sub_cancel] at *
      have e1 : q + 2 - 1 = q + 1 := by omega
      rw [e1]
      nlinarith
  have : ((fun i => decide (i < m)) ∘ fun k => k * (m - 1) / (q - 1)) = fun k => decide (k < q) := by
    funext k
    simp only [Function.comp, hiff]
  rw [this]
  obtain ⟨r, rfl⟩ : ∃ r, m = q + r := ⟨m - q, by omega⟩
  rw [List.range_add, List.filter_append]
  have h1 : (List.range q).filter (fun k => decide (k < q)) = List.range q := by
    rw [List.filter_eq_self]
    intro k hk
    simpa using hk
  have h2 : ((List.range r).map (q + ·)).filter (fun k => decide (k < q)) = [] := by
    rw [List.filter_eq_nil_iff]
    intro k hk
    obtain ⟨a, _, rfl⟩ := List.mem_map.1 hk
    simp
  rw [h1, h2, List.append_nil]

/-- C87. From more than `maxpnt` rows exactly `maxpnt` are used, each once and in order, among them the first and the last one. -/
theorem c87_rows {m q : Nat} (hq : 2 ≤ q) (hm : q < m) :
    (kept m q).length = q ∧ (kept m q).Pairwise (· < ·) ∧ (∀ i ∈ kept m q, i < m) ∧ 0 ∈ kept m q ∧ m - 1 ∈ kept m q := by
  rw [kept_eq hq hm]
  have hstep : ∀ a b, a < b → a * (m - 1) / (q - 1) < b * (m - 1) / (q - 1) := by
    intro a b hab
    have h1 : a * (m - 1) + (q - 1) ≤ b * (m - 1) := by
      have : (a + 1) * (m - 1) ≤ b * (m - 1) := Nat.mul_le_mul_right _ hab
      rw [Nat.add_mul, one_mul] at this
      omega
    have h2 : (a * (m - 1) + (q - 1)) / (q - 1) = a * (m - 1) / (q - 1) + 1 := Nat.add_div_right _ (by omega)
    have h3 : (a * (m - 1) + (q - 1)) / (q - 1) ≤ b * (m - 1) / (q - 1) := Nat.div_le_div_right h1
    omega
  have hlast : (q - 1) * (m - 1) / (q - 1) = m - 1 := Nat.mul_div_cancel_left _ (by omega)
  refine ⟨by simp, ?_, ?_, ?_, ?_⟩
  · rw [List.pairwise_map]
    exact List.pairwise_lt_range.imp fun {a b} h => hstep a b h
  · intro i hi
    obtain ⟨k, hk, rfl⟩ := List.mem_map.1 hi
    have hk' := List.mem_range.1 hk
    have : k * (m - 1) / (q - 1) ≤ (q - 1) * (m - 1) / (q - 1) := Nat.div_le_div_right (Nat.mul_le_mul_right _ (by omega))
    omega
  · exact List.mem_map.2 ⟨0, List.mem_range.2 (by omega), by simp⟩
  · exact List.mem_map.2 ⟨q - 1, List.mem_range.2 (by omega), hlast⟩

section examples

/-- Predictions that are not those of a constant. -/
def exGp : (Fin 3 → ℝ) → (Fin 3 → ℝ) → Fin 3 → ℝ := fun x y i => 2 * x i + y 0

example : (causeOrEffect (anmScoreFlat exGp) ![0, 1, 5] ![2, 2, 7]).1 = (causeOrEffect (anmScoreFlat exGp) ![0, 1, 5] ![2, 2, 7]).2 :=
  (c86_false exGp _ _).1

example : 0 ≤ anmScoreCol exGp ![0, 1, 5] ![2, 2, 7] := (c86_partial exGp _ _).1

example : anmScoreCol (fun x y i => y i + 3 * (exGp x y i - y i)) ![0, 1, 5] ![2, 2, 7] = anmScoreCol exGp ![0, 1, 5] ![2, 2, 7] :=
  (c86_partial exGp ![0, 1, 5] ![2, 2, 7]).2.1 1 0 3 _ _ _ (by norm_num) (by norm_num) (fun i => by ring) (fun i => by ring)

example : causeOrEffect (anmScoreCol exGp) (fun i => 2 * ![0, 1, 5] i + 3) (fun i => 5 * ![2, 2, 7] i + -1) =
    causeOrEffect (anmScoreCol exGp) ![0, 1, 5] ![2, 2, 7] := (c87_units _ _ _ (by norm_num) (by norm_num) _ _).1

example : kept 10 4 = [0, 3, 6, 9] := by decide

example : (kept 10 4).length = 4 := (c87_rows (by decide) (by decide)).1

end examples

end Cdmir.KTest
