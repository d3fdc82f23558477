import Verif.Lemmas.ExpmBound
import Mathlib.Analysis.Normed.Algebra.MatrixExponential
import Mathlib.Analysis.CStarAlgebra.Matrix

/-! C119-C121: the matrix exponential of expm_taylor.py. -/

namespace Cdmir.Expm
open Finset NormedSpace

/-! ### C119 -/

/-- **C119.** With degree 1, 2, 4 and 8 `taylor_approx` is exactly the Taylor polynomial of the exponential. -/
theorem c119_exact {R : Type} [Ring R] [Algebra ℝ R] (a : R) {deg : ℕ} (hd : deg ∈ [1, 2, 4, 8]) :
    taylorApprox a deg = some (∑ k ∈ range (deg + 1), (1 / (k.factorial : ℝ)) • a ^ k) := by
  simp only [List.mem_cons, List.not_mem_nil, or_false] at hd
  rcases hd with rfl | rfl | rfl | rfl
  · simp [taylorApprox, sum_range_succ]
  · simp [taylorApprox, sum_range_succ, pow_two]
  · simp only [taylorApprox, sum_range_succ, range_zero, sum_empty, Nat.factorial, mul_add, mul_smul_comm, mul_one]
    have h3 : a * a * a = a ^ 3 := by simp [pow_succ]
    have h4 : a * a * (a * a) = a ^ 4 := by simp [pow_succ, mul_assoc]
    rw [h3, h4, ← pow_two]
    norm_num
    abel
  · exact congrArg some (taylor8_sum a)

/-- Degree eight at the number two. -/
example : taylorApprox (2 : ℝ) 8 = some (1 + 2 + 4 / 2 + 8 / 6 + 16 / 24 + 32 / 120 + 64 / 720 + 128 / 5040 + 256 / 40320) := by
  rw [c119_exact (2 : ℝ) (by simp)]
  norm_num [sum_range_succ, Nat.factorial]

/-- **C119.** With degree 12 and 18 it is a polynomial whose coefficients are those of the exponential up to a relative error of `10⁻¹⁵` and an absolute
error of `6·10⁻¹⁷`. -/
theorem c119_near {deg : ℕ} (hd : deg ∈ [12, 18]) :
    ∃ c : ℕ → ℝ, (∀ k ≤ deg, |c k - 1 / (k.factorial : ℝ)| ≤ 1e-15 / k.factorial ∧ |c k - 1 / (k.factorial : ℝ)| ≤ 6e-17) ∧
      ∀ {R : Type} [Ring R] [Algebra ℝ R] (a : R), taylorApprox a deg = some (∑ k ∈ range (deg + 1), c k • a ^ k) := by
  simp only [List.mem_cons, List.not_mem_nil, or_false] at hd
  rcases hd with rfl | rfl
  · refine ⟨c12, fun k hk => ?_, fun a => congrArg some (taylor12_sum a)⟩
    rw [abs_le, abs_le]
    interval_cases k <;> norm_num [c12, Nat.factorial]
  · refine ⟨c18, fun k hk => ?_, fun a => congrArg some (taylor18_sum a)⟩
    rw [abs_le, abs_le]
    interval_cases k <;> norm_num [c18, Nat.factorial]

/-- Degree eighteen at zero: the constant coefficient is not exactly one. -/
example : ∃ c, taylorApprox (0 : ℝ) 18 = some c ∧ |c - 1| ≤ 6e-17 := by
  obtain ⟨c, h, e⟩ := c119_near (deg := 18) (by simp)
  refine ⟨c 0, ?_, ?_⟩
  · rw [e (0 : ℝ), sum_range_succ']
    simp
  · simpa using (h 0 (by norm_num)).2

/-! ### C121 -/

section pow
variable {b n : ℕ}

theorem mem_drop_sorted {k : Fin b → ℕ} (t : ℕ) : ∀ {l : List (Fin b)}, l.Pairwise (fun i j => k i ≤ k j) → l.Nodup →
    ∀ x, x ∈ l.drop (l.countP fun i => decide (k i ≤ t)) ↔ x ∈ l ∧ t < k x
  | [], _, _, x => by simp
  | a :: l, hs, hn, x => by
    rw [List.pairwise_cons] at hs
    rw [List.nodup_cons] at hn
    by_cases ha : k a ≤ t
    · rw [List.countP_cons_of_pos (by simpa using ha), List.drop_succ_cons, mem_drop_sorted t hs.2 hn.2 x]
      constructor
      · rintro ⟨h1, h2⟩; exact ⟨List.mem_cons_of_mem _ h1, h2⟩
      · rintro ⟨h1, h2⟩
        rcases List.mem_cons.1 h1 with rfl | h1
        · omega
        · exact ⟨h1, h2⟩
    · have h0 : (a :: l).countP (fun i => decide (k i ≤ t)) = 0 := by
        rw [List.countP_eq_zero]
        intro i hi
        rcases List.mem_cons.1 hi with rfl | hi
        · simpa using ha
        · have := hs.1 i hi
          simp only [decide_eq_true_eq]; omega
      rw [h0, List.drop_zero]
      refine ⟨fun h => ⟨h, ?_⟩, fun h => h.1⟩
      rcases List.mem_cons.1 h with rfl | hi
      · omega
      · have := hs.1 x hi; omega

theorem pow_loop {idx : List (Fin b)} {k : Fin b → ℕ} (hmem : ∀ i, i ∈ idx) (hn : idx.Nodup) (hs : idx.Pairwise fun i j => k i ≤ k j)
    (A : Fin b → Mat n) : ∀ (L : List ℕ) (st : PowSt b n), L.Pairwise (· < ·) → (∀ e ∈ L, st.last < e) → (∀ i, k i ≤ st.last ∨ k i ∈ L) →
      st.processed = (idx.countP fun i => decide (k i ≤ st.last)) → (∀ i, st.A i = A i ^ 2 ^ min (k i) st.last) →
      (L.foldl (powStep idx (idx.map k)) st).A = fun i => A i ^ 2 ^ k i
  | [], st, _, _, hk, _, hA => by
    funext i
    rw [List.foldl_nil, hA, min_eq_left]
    simpa using hk i
  | e :: L, st, hL, hlt, hk, hp, hA => by
    rw [List.foldl_cons]
    rw [List.pairwise_cons] at hL
    have hle := hlt e List.mem_cons_self
    refine pow_loop hmem hn hs A L _ hL.2 (fun e' he' => hL.1 e' he') (fun i => ?_) ?_ fun i => ?_
    · rcases hk i with h | h
      · exact Or.inl (h.trans hle.le)
      · rcases List.mem_cons.1 h with h | h
        · exact Or.inl h.le
        · exact Or.inr h
    · show st.processed + (idx.map k).count e = _
      rw [hp, List.count_eq_countP, List.countP_map]
      show _ = idx.countP fun i => decide (k i ≤ e)
      clear hp
      have : ∀ l : List (Fin b), l.countP (fun i => decide (k i ≤ st.last)) + l.countP ((fun x => x == e) ∘ k) =
          l.countP fun i => decide (k i ≤ e) := by
        intro l
        induction l with
        | nil => rfl
        | cons a l ih =>
          rw [List.countP_cons, List.countP_cons, List.countP_cons, ← ih]
          have ha : (if decide (k a ≤ st.last) = true then 1 else 0) + (if ((fun x => x == e) ∘ k) a = true then 1 else 0) =
              if decide (k a ≤ e) = true then 1 else 0 := by
            simp only [decide_eq_true_eq, Function.comp_apply, beq_iff_eq]
            rcases hk a with h | h
            · rw [if_pos h, if_neg (by omega), if_pos (by omega)]
            · rcases List.mem_cons.1 h with h | h
              · rw [if_neg (by omega), if_pos h, if_pos (by omega)]
              · have := hL.1 _ h
                rw [if_neg (by omega), if_neg (by omega), if_neg (by omega)]
          omega
      exact this idx
    · show (if i ∈ idx.drop st.processed then st.A i ^ 2 ^ (e - st.last) else st.A i) = A i ^ 2 ^ min (k i) e
      rw [hp]
      have hd := mem_drop_sorted (k := k) st.last hs hn i
      rw [hA]
      by_cases h : st.last < k i
      · rw [if_pos (hd.2 ⟨hmem i, h⟩), ← pow_mul, ← pow_add]
        rcases hk i with h' | h'
        · omega
        · have : e ≤ k i := by
            rcases List.mem_cons.1 h' with h' | h'
            · omega
            · exact (hL.1 _ h').le
          congr 2
          omega
      · rw [if_neg (fun hh => h (hd.1 hh).2)]
        congr 2
        omega

/-- **C121.** `matrix_power_two_batch` raises each matrix of the batch to two to the power of its own exponent, however `torch.sort` orders equal exponents. -/
theorem c121_powers {idx : List (Fin b)} {k : Fin b → ℕ} (hb : 0 < b) (hp : idx.Perm (List.finRange b)) (hs : idx.Pairwise fun i j => k i ≤ k j)
    (A : Fin b → Mat n) : powTwoBatch idx A k = .ok fun i => A i ^ 2 ^ k i := by
  have hmem : ∀ i, i ∈ idx := fun i => hp.mem_iff.2 (List.mem_finRange i)
  have hn : idx.Nodup := hp.nodup_iff.2 (List.nodup_finRange b)
  match idx, hp, hs, hmem, hn with
  | [], hp, _, hmem, _ => exact absurd (hmem ⟨0, hb⟩) (by simp)
  | i0 :: l, hp, hs, hmem, hn =>
    have hks : ∀ e, e ∈ k i0 :: l.map k ↔ ∃ i, k i = e := by
      intro e
      rw [← List.map_cons, List.mem_map]
      exact ⟨fun ⟨i, _, h⟩ => ⟨i, h⟩, fun ⟨i, h⟩ => ⟨i, hmem i, h⟩⟩
    have hmin : ∀ i, k i0 ≤ k i := by
      intro i
      rcases List.mem_cons.1 (hmem i) with rfl | h
      · exact le_rfl
      · exact (List.pairwise_cons.1 hs).1 i h
    have hmax : ∀ (l : List ℕ) (a : ℕ), a ≤ l.foldl max a ∧ ∀ e ∈ l, e ≤ l.foldl max a := by
      intro l
      induction l with
      | nil => intro a; simp
      | cons x l ih =>
        intro a
        rw [List.foldl_cons]
        obtain ⟨h1, h2⟩ := ih (max a x)
        refine ⟨(le_max_left _ _).trans h1, fun e he => ?_⟩
        rcases List.mem_cons.1 he with rfl | he
        · exact (le_max_right _ _).trans h1
        · exact h2 e he
    simp only [powTwoBatch, List.map_cons]
    set ks := k i0 :: l.map k with hksd
    set nz := (List.range (ks.foldl max 0 + 1)).filter fun e => ks.count e ≠ 0 with hnz
    have hnzm : ∀ e, e ∈ nz ↔ e ∈ ks := by
      intro e
      rw [hnz, List.mem_filter, List.mem_range]
      constructor
      · rintro ⟨_, h⟩
        simp only [ne_eq, decide_not, Bool.not_eq_true', decide_eq_false_iff_not] at h
        exact List.count_pos_iff.1 (Nat.pos_of_ne_zero h)
      · intro h
        have h1 := (hmax ks 0).2 e h
        have h2 := (List.count_pos_iff.2 h).ne'
        exact ⟨by omega, by simpa using h2⟩
    have hnzs : nz.Pairwise (· < ·) := List.Pairwise.filter _ List.pairwise_lt_range
    obtain ⟨nzt, hnzc⟩ : ∃ t, nz = k i0 :: t := by
      have h0 : k i0 ∈ nz := (hnzm _).2 ((hks _).2 ⟨i0, rfl⟩)
      match nz, h0 with
      | [], h0 => exact absurd h0 (by simp)
      | e :: t, h0 =>
        refine ⟨t, ?_⟩
        have he : e ∈ e :: t := List.mem_cons_self
        obtain ⟨i, hi⟩ := (hks e).1 ((hnzm e).1 he)
        have h1 := hmin i
        rcases List.mem_cons.1 h0 with h | h
        · rw [h]
        · have := (List.pairwise_cons.1 hnzs).1 _ h
          omega
    rw [hnzc] at hnzs ⊢
    simp only [List.headD_cons, List.tail_cons]
    congr 1
    have key := pow_loop (n := n) hmem hn hs A nzt ⟨fun i => A i ^ 2 ^ k i0, k i0, ks.count (k i0)⟩ (List.pairwise_cons.1 hnzs).2
      (List.pairwise_cons.1 hnzs).1 (fun i => ?_) ?_ fun i => ?_
    · rw [List.map_cons] at key; exact key
    · have h : k i ∈ nz := (hnzm _).2 ((hks _).2 ⟨i, rfl⟩)
      rw [hnzc] at h
      rcases List.mem_cons.1 h with h | h
      · exact Or.inl h.le
      · exact Or.inr h
    · show ks.count (k i0) = (i0 :: l).countP fun i => decide (k i ≤ k i0)
      rw [hksd, ← List.map_cons, List.count_eq_countP, List.countP_map]
      refine List.countP_congr fun i _ => ?_
      simp only [Function.comp_apply, beq_iff_eq, decide_eq_true_eq]
      have := hmin i
      omega
    · show A i ^ 2 ^ k i0 = A i ^ 2 ^ min (k i) (k i0)
      rw [min_eq_right (hmin i)]

/-- Three matrices with the exponents 1, 0 and 1. -/
example (A : Fin 3 → Mat n) : powTwoBatch [1, 2, 0] A ![1, 0, 1] = .ok fun i => A i ^ 2 ^ (![1, 0, 1] : Fin 3 → ℕ) i :=
  c121_powers (by norm_num) (by decide) (by decide) A

end pow

/-! ### C120 -/

theorem eps_nonneg (precise : Bool) : 0 ≤ eps precise := by cases precise <;> norm_num [eps]

theorem lastTheta_pos (precise : Bool) : 1 < lastTheta precise := by cases precise <;> norm_num [lastTheta]

theorem firstDeg_none {precise : Bool} {ν : ℝ} (h : firstDeg precise ν = none) : lastTheta precise < ν := by
  simp only [firstDeg, Option.map_eq_none_iff, List.find?_eq_none] at h
  cases precise with
  | true => simpa [lastTheta] using h (18, 1.090863719290036e+00) (by simp [degs, thetas])
  | false => simpa [lastTheta] using h (18, 3.010066362817634e+00) (by simp [degs, thetas])

theorem scale_spec {θ ν : ℝ} (hθ : 0 < θ) (h : θ < ν) :
    0 ≤ scaleBy θ ν ∧ (1 / 2 : ℝ) ^ (scaleBy θ ν).toNat * ν ≤ θ ∧ θ / 2 < (1 / 2 : ℝ) ^ (scaleBy θ ν).toNat * ν := by
  have hν := hθ.trans h
  have hlog : Real.logb 2 ν - Real.logb 2 θ = Real.logb 2 (ν / θ) := (Real.logb_div hν.ne' hθ.ne').symm
  have hq : 1 < ν / θ := (one_lt_div hθ).2 h
  have hpos : 0 < Real.logb 2 (ν / θ) := Real.logb_pos (by norm_num) hq
  obtain ⟨s, hs⟩ : ∃ s, scaleBy θ ν = s := ⟨_, rfl⟩
  have hs' : ⌈Real.logb 2 (ν / θ)⌉ = s := by rw [← hs, scaleBy, hlog]
  have h0 : 0 ≤ s := by rw [← hs']; exact Int.ceil_nonneg hpos.le
  obtain ⟨m, rfl⟩ := Int.eq_ofNat_of_zero_le h0
  have h1 : Real.logb 2 (ν / θ) ≤ m := by have := Int.le_ceil (Real.logb 2 (ν / θ)); rw [hs'] at this; exact_mod_cast this
  have h2 : (m : ℝ) < Real.logb 2 (ν / θ) + 1 := by have := Int.ceil_lt_add_one (Real.logb 2 (ν / θ)); rw [hs'] at this; exact_mod_cast this
  have h3 : ν / θ ≤ 2 ^ m := by
    have := (Real.logb_le_iff_le_rpow (by norm_num) (by positivity)).1 h1
    rwa [Real.rpow_natCast] at this
  have h4 : (2 : ℝ) ^ m < ν / θ * 2 := by
    have h5 : Real.logb 2 (2 ^ m) < Real.logb 2 (ν / θ * 2) := by
      rw [Real.logb_mul (by positivity) (by norm_num), Real.logb_self_eq_one (by norm_num), Real.logb_pow, Real.logb_self_eq_one (by norm_num), mul_one]
      exact h2
    exact (Real.logb_lt_logb_iff (by norm_num) (by positivity) (by positivity)).1 h5
  rw [hs]
  refine ⟨h0, ?_, ?_⟩
  · rw [Int.toNat_natCast, one_div, inv_pow, inv_mul_le_iff₀ (by positivity)]
    rwa [div_le_iff₀ hθ] at h3
  · rw [Int.toNat_natCast, one_div, inv_pow, ← div_eq_inv_mul, lt_div_iff₀ (by positivity)]
    rw [div_mul_eq_mul_div, lt_div_iff₀ hθ] at h4
    linarith

section
variable {R : Type*} [NormedRing R] [NormedAlgebra ℝ R] [CompleteSpace R] [NormOneClass R] {a : R} {ν : ℝ}

theorem scaled_near {precise : Bool} (hν : ‖a‖ ≤ ν) (hbig : lastTheta precise < ν) {m : ℕ} (hm : (scaleBy (lastTheta precise) ν).toNat = m) :
    ‖taylor18 ((1 / 2 : ℝ) ^ m • a) ^ 2 ^ m - exp a‖ ≤ eps precise * ν * Real.exp ((1 + eps precise) * ν) := by
  have hθ := lastTheta_pos precise
  obtain ⟨_, h1, h2⟩ := scale_spec (by linarith) hbig
  rw [hm] at h1 h2
  have h3 : ‖(1 / 2 : ℝ) ^ m • a‖ ≤ (1 / 2 : ℝ) ^ m * ν := by
    rw [norm_smul, Real.norm_eq_abs, abs_of_nonneg (by positivity)]
    exact mul_le_mul_of_nonneg_left hν (by positivity)
  have h4 := near18 (precise := precise) h3 (by linarith) h1
  have h5 := scaling (N := 2 ^ m) (by positivity) h3 h4 (eps_nonneg precise)
  have e1 : ((2 ^ m : ℕ) : ℝ) * ((1 / 2 : ℝ) ^ m * ν) = ν := by push_cast; rw [← mul_assoc, ← mul_pow]; norm_num
  have e2 : ((2 ^ m : ℕ) : ℝ) • (1 / 2 : ℝ) ^ m • a = a := by rw [smul_smul]; push_cast; rw [← mul_pow]; norm_num
  rw [e1, e2] at h5
  exact h5

end

theorem entryExp_one {n : ℕ} (hn : n = 1) (A : Mat n) : entryExp A = exp A := by
  subst hn
  have : A = Matrix.diagonal fun i => A i i := by
    ext i j
    rw [Subsingleton.elim j i, Matrix.diagonal_apply_eq]
  conv_rhs => rw [this, Matrix.exp_diagonal]
  ext i j
  rw [Subsingleton.elim j i, Matrix.diagonal_apply_eq, Pi.coe_exp, entryExp, Matrix.of_apply, Real.exp_eq_exp_ℝ]

section single
open scoped Matrix.Norms.Operator

theorem row_le {n : ℕ} (M : Mat n) (i : Fin n) : ∑ j, |M i j| ≤ ‖M‖ := by
  rw [Matrix.linfty_opNorm_def]
  have : (∑ j, ‖M i j‖₊) ≤ univ.sup fun i => ∑ j, ‖M i j‖₊ := le_sup (f := fun i => ∑ j, ‖M i j‖₊) (mem_univ i)
  have h := NNReal.coe_le_coe.2 this
  push_cast at h
  simpa using h

theorem norm_le_sum {n : ℕ} (M : Mat n) : ‖M‖ ≤ sumNorm M := by
  rw [Matrix.linfty_opNorm_def]
  have h0 : 0 ≤ sumNorm M := sum_nonneg fun i _ => sum_nonneg fun j _ => abs_nonneg _
  rw [← Real.coe_toNNReal _ h0, NNReal.coe_le_coe]
  refine Finset.sup_le fun i _ => ?_
  rw [← NNReal.coe_le_coe, Real.coe_toNNReal _ h0]
  push_cast
  simp only [Real.norm_eq_abs]
  exact single_le_sum (f := fun i => ∑ j, |M i j|) (fun i _ => sum_nonneg fun j _ => abs_nonneg _) (mem_univ i)

/-- **C120.** `expm_taylor` of one matrix always returns, and each row of the result is close to that of the exponential. -/
theorem c120_single {n : ℕ} (precise : Bool) (A : Mat n) {ε ν : ℝ} (hε : ε = if precise then 1 / 2 ^ 51 else 1 / 2 ^ 23) (hν : ν = ∑ i, ∑ j, |A i j|) :
    ∃ X, expmTaylor precise A = some X ∧ ∀ i, ∑ j, |X i j - exp A i j| ≤ ε * ν * Real.exp ((1 + ε) * ν) := by
  have hν0 : 0 ≤ ν := by rw [hν]; exact sum_nonneg fun i _ => sum_nonneg fun j _ => abs_nonneg _
  have hε' : ε = eps precise := hε
  have hε0 : 0 ≤ ε := hε' ▸ eps_nonneg precise
  unfold expmTaylor
  by_cases h1 : n = 1
  · rw [if_pos h1, entryExp_one h1]
    refine ⟨_, rfl, fun i => ?_⟩
    simp only [sub_self, abs_zero, sum_const_zero]
    positivity
  rw [if_neg h1]
  have hs : sumNorm A = ν := hν.symm
  rw [hs]
  rcases Nat.eq_zero_or_pos n with h0 | hpos
  · subst h0
    have : ν = 0 := by rw [hν]; simp
    have hf : firstDeg precise ν = some 1 := by
      rw [this]; cases precise <;> norm_num [firstDeg, degs, thetas]
    rw [hf]
    exact ⟨_, rfl, fun i => i.elim0⟩
  have : Nonempty (Fin n) := ⟨⟨0, hpos⟩⟩
  have hA : ‖A‖ ≤ ν := hs ▸ norm_le_sum A
  suffices h : ∃ X, (match firstDeg precise ν with
      | some deg => taylorApprox A deg
      | none => (taylorApprox ((2 : ℝ) ^ (-scaleBy (lastTheta precise) ν) • A) 18).map fun X => X ^ 2 ^ (scaleBy (lastTheta precise) ν).toNat) = some X ∧
      ‖X - exp A‖ ≤ ε * ν * Real.exp ((1 + ε) * ν) by
    obtain ⟨X, e, hX⟩ := h
    refine ⟨X, e, fun i => ?_⟩
    have := row_le (X - exp A) i
    simp only [Matrix.sub_apply] at this
    exact this.trans hX
  cases hf : firstDeg precise ν with
  | some deg =>
    obtain ⟨X, e, hX⟩ := near_first hA hf
    refine ⟨X, e, hX.trans ?_⟩
    rw [hε']
    refine le_mul_of_one_le_right (mul_nonneg (eps_nonneg _) hν0) (Real.one_le_exp ?_)
    have := eps_nonneg precise
    positivity
  | none =>
    have hbig := firstDeg_none hf
    have hs0 := (scale_spec (by have := lastTheta_pos precise; linarith) hbig).1
    obtain ⟨m, hm⟩ := Int.eq_ofNat_of_zero_le hs0
    refine ⟨_, rfl, ?_⟩
    have e : (2 : ℝ) ^ (-scaleBy (lastTheta precise) ν) = (1 / 2) ^ m := by rw [hm, zpow_neg, one_div, inv_pow]; rfl
    rw [e]
    have hm' : (scaleBy (lastTheta precise) ν).toNat = m := by rw [hm]; rfl
    rw [hm', hε']
    exact scaled_near hA hbig hm'

/-- A matrix whose entries sum to ten. -/
example : ∃ X, expmTaylor true (!![1, 2; 3, 4] : Mat 2) = some X ∧
    ∀ i, ∑ j, |X i j - exp (!![1, 2; 3, 4] : Mat 2) i j| ≤ 1 / 2 ^ 51 * 10 * Real.exp ((1 + 1 / 2 ^ 51) * 10) :=
  c120_single true _ (by norm_num) (by norm_num [Fin.sum_univ_two])

end single

section batch
open scoped Matrix.Norms.L2Operator

theorem norm_le_frob {n : ℕ} (M : Mat n) : ‖M‖ ≤ frobNorm M := by
  rw [Matrix.l2_opNorm_def]
  refine ContinuousLinearMap.opNorm_le_bound _ (Real.sqrt_nonneg _) fun x => ?_
  rw [EuclideanSpace.norm_eq, EuclideanSpace.norm_eq]
  have h0 : (0 : ℝ) ≤ ∑ i, ∑ j, M i j ^ 2 := sum_nonneg fun i _ => sum_nonneg fun j _ => sq_nonneg _
  refine le_trans (Real.sqrt_le_sqrt ?_) (Real.sqrt_mul h0 (∑ i, ‖x i‖ ^ 2)).le
  rw [sum_mul]
  refine sum_le_sum fun i _ => ?_
  simp only [Real.norm_eq_abs, sq_abs]
  exact sum_mul_sq_le_sq_mul_sq univ (fun j => M i j) fun j => x j

theorem entry_le {n : ℕ} (M : Mat n) (i j : Fin n) : |M i j| ≤ ‖M‖ := by
  have h := Matrix.l2_opNorm_mulVec M (EuclideanSpace.single j 1)
  rw [PiLp.norm_single, norm_one, mul_one] at h
  refine le_trans ?_ h
  have h2 := PiLp.norm_apply_le ((EuclideanSpace.equiv (Fin n) ℝ).symm (M.mulVec (EuclideanSpace.single j (1 : ℝ)))) i
  refine le_trans (le_of_eq ?_) h2
  rw [Real.norm_eq_abs]
  congr 1
  simp

/-- **C120.** `expm_taylor` of a batch always returns, and each entry of each result is close to that of the exponential. -/
theorem c120_batch {b n : ℕ} {sort : (Fin b → ℕ) → List (Fin b)} (hsort : ∀ k, (sort k).Perm (List.finRange b) ∧ (sort k).Pairwise fun i j => k i ≤ k j)
    (precise : Bool) (A : Fin b → Mat n) {ε : ℝ} {ν : Fin b → ℝ} (hε : ε = if precise then 1 / 2 ^ 51 else 1 / 2 ^ 23)
    (hν : ∀ t, ν t = Real.sqrt (∑ i, ∑ j, A t i j ^ 2)) :
    ∃ X, expmBatch sort precise A = .ok X ∧ ∀ t i j, |X t i j - exp (A t) i j| ≤ ε * (1 + ν t) * Real.exp ((1 + ε) * ν t) := by
  have hε' : ε = eps precise := hε
  have hε0 : 0 ≤ ε := hε' ▸ eps_nonneg precise
  have hν0 : ∀ t, 0 ≤ ν t := fun t => by rw [hν]; exact Real.sqrt_nonneg _
  have hR : ∀ t, 0 ≤ ε * (1 + ν t) * Real.exp ((1 + ε) * ν t) := fun t => by have := hν0 t; positivity
  have hf : ∀ t, frobNorm (A t) = ν t := fun t => (hν t).symm
  unfold expmBatch
  by_cases h1 : n = 1
  · rw [if_pos h1]
    refine ⟨_, rfl, fun t i j => ?_⟩
    rw [entryExp_one h1, sub_self, abs_zero]
    exact hR t
  rw [if_neg h1]
  by_cases h0 : ∀ i, frobNorm (A i) = 0
  · rw [if_pos h0]
    refine ⟨_, rfl, fun t i j => ?_⟩
    have : A t = 0 := by
      have h := norm_le_frob (A t)
      rw [h0 t] at h
      exact norm_le_zero_iff.1 h
    rw [this, exp_zero, sub_self, abs_zero]
    exact hR t
  rw [if_neg h0]
  simp only
  have hb : 0 < b := by
    rcases Nat.eq_zero_or_pos b with rfl | h
    · exact absurd (fun i : Fin 0 => i.elim0) h0
    · exact h
  have hn : 0 < n := by
    rcases Nat.eq_zero_or_pos n with rfl | h
    · exact absurd (fun i => by simp [frobNorm]) h0
    · exact h
  have : Nonempty (Fin n) := ⟨⟨0, hn⟩⟩
  set k : Fin b → ℕ := fun i => if lastTheta precise < frobNorm (A i) then (scaleBy (lastTheta precise) (frobNorm (A i))).toNat else 0 with hk
  rw [c121_powers hb (hsort k).1 (hsort k).2]
  refine ⟨_, rfl, fun t i j => ?_⟩
  have hA : ‖A t‖ ≤ ν t := hf t ▸ norm_le_frob (A t)
  suffices h : ‖taylor18 ((1 / 2 : ℝ) ^ k t • A t) ^ 2 ^ k t - exp (A t)‖ ≤ ε * (1 + ν t) * Real.exp ((1 + ε) * ν t) by
    have h2 := entry_le (taylor18 ((1 / 2 : ℝ) ^ k t • A t) ^ 2 ^ k t - exp (A t)) i j
    exact h2.trans h
  by_cases hbig : lastTheta precise < ν t
  · have hkt : (scaleBy (lastTheta precise) (ν t)).toNat = k t := by
      simp only [hk, hf, if_pos hbig]
    refine (scaled_near hA hbig hkt).trans ?_
    rw [← hε']
    refine mul_le_mul_of_nonneg_right (mul_le_mul_of_nonneg_left (by linarith) hε0) (Real.exp_pos _).le
  · have hkt : k t = 0 := by simp only [hk, hf, if_neg hbig]
    rw [hkt, pow_zero, pow_zero, pow_one, one_smul]
    refine (near18_all hA (not_lt.1 hbig)).trans ?_
    rw [← hε']
    have := hν0 t
    exact le_mul_of_one_le_right (by positivity) (Real.one_le_exp (by positivity))

/-- A batch of two matrices, of norm zero and five; they are already sorted. -/
example : ∃ X, expmBatch (fun k => if k 0 ≤ k 1 then [0, 1] else [1, 0]) false ![(0 : Mat 2), !![3, 0; 0, 4]] = .ok X ∧
    |X 1 1 1 - exp (!![3, 0; 0, 4] : Mat 2) 1 1| ≤ 1 / 2 ^ 23 * (1 + 5) * Real.exp ((1 + 1 / 2 ^ 23) * 5) := by
  obtain ⟨X, h, hb⟩ := c120_batch (sort := fun k : Fin 2 → ℕ => if k 0 ≤ k 1 then [0, 1] else [1, 0])
    (fun k => by
      constructor
      · split_ifs
        · exact List.Perm.refl _
        · exact List.Perm.swap 0 1 []
      · split_ifs with h
        · simpa using h
        · simpa using (not_le.1 h).le) false ![(0 : Mat 2), !![3, 0; 0, 4]] (ε := 1 / 2 ^ 23)
    (ν := fun t => Real.sqrt (∑ i, ∑ j, (![(0 : Mat 2), !![3, 0; 0, 4]] : Fin 2 → Mat 2) t i j ^ 2)) (by norm_num) fun _ => rfl
  refine ⟨X, h, ?_⟩
  have h5 : Real.sqrt (∑ i, ∑ j, (![(0 : Mat 2), !![3, 0; 0, 4]] : Fin 2 → Mat 2) 1 i j ^ 2) = 5 := by
    rw [Real.sqrt_eq_iff_mul_self_eq_of_pos (by norm_num)]
    norm_num [Fin.sum_univ_two]
  have := hb 1 1 1
  simp only [h5] at this
  exact this

end batch

end Cdmir.Expm
