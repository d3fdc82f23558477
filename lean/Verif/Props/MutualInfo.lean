import Verif.Props.Mutual

/-! C138 (mutual information of nearest neighbours), C139 (`independent`). -/

namespace Cdmir.Mutual
open BigOperators

variable {n : Nat}

theorem entropies_ok (vs : List (Var n)) {k : Nat} (hd : ∀ X ∈ vs, 0 < X.d) (hk : k < n) :
    entropies vs k = .ok (vs.map fun X => entropyVal X k) := by
  unfold entropies
  induction vs with
  | nil => rfl
  | cons X l ih =>
    rw [List.mapM_cons, ih fun Y hY => hd Y (List.mem_cons_of_mem _ hY), entropy_eq,
      if_neg (by have := hd X List.mem_cons_self; omega)]
    rfl

theorem entropies_err (vs : List (Var n)) {k : Nat} (h : ∃ X ∈ vs, X.d = 0 ∨ n < k + 1) : entropies vs k = .error .value := by
  unfold entropies
  induction vs with
  | nil => simp at h
  | cons X l ih =>
    rw [List.mapM_cons, entropy_eq]
    by_cases hX : X.d = 0 ∨ n < k + 1
    · rw [if_pos hX]; rfl
    · rw [if_neg hX]
      have : ∃ X ∈ l, X.d = 0 ∨ n < k + 1 := by
        obtain ⟨Y, hY, h'⟩ := h
        rcases List.mem_cons.1 hY with rfl | hY
        · exact absurd h' hX
        · exact ⟨Y, hY, h'⟩
      rw [ih this]
      rfl

theorem hstack_pos {vs : List (Var n)} (h2 : 2 ≤ vs.length) (hd : ∀ X ∈ vs, 0 < X.d) : 0 < (hstack vs).d := by
  cases vs with
  | nil => simp at h2
  | cons X l =>
    have := hd X List.mem_cons_self
    rw [d_hstack]
    simp
    omega

theorem mi_ok {vs : List (Var n)} {k : Nat} (h2 : 2 ≤ vs.length) (hd : ∀ X ∈ vs, 0 < X.d) (hk : k < n) :
    mutualInformation vs k = .ok ((vs.map fun X => entropyVal X k).sum - entropyVal (hstack vs) k) := by
  unfold mutualInformation
  rw [if_neg (by omega), entropies_ok vs hd hk]
  simp only [entropy_eq]
  rw [if_neg (by have := hstack_pos h2 hd; omega)]
  rfl

theorem mi_err {vs : List (Var n)} {k : Nat} (h2 : 2 ≤ vs.length) (h : ∃ X ∈ vs, X.d = 0 ∨ n < k + 1) :
    mutualInformation vs k = .error .value := by
  unfold mutualInformation
  rw [if_neg (by omega), entropies_err vs h]
  rfl

/-- C138: fewer than two variables raise `AttributeError`; otherwise a value comes back exactly if all variables have a column and there
are more than `k` rows. -/
theorem c138_returns (vs : List (Var n)) (k : Nat) : (mutualInformation vs k = .error .exception ↔ vs.length < 2) ∧
    ((∃ v, mutualInformation vs k = .ok v) ↔ 2 ≤ vs.length ∧ (∀ X ∈ vs, 0 < X.d) ∧ k < n) := by
  by_cases h2 : vs.length < 2
  · have e : mutualInformation vs k = .error .exception := by unfold mutualInformation; rw [if_pos h2]
    refine ⟨⟨fun _ => h2, fun _ => e⟩, fun ⟨v, hv⟩ => ?_, fun h => by omega⟩
    rw [e] at hv
    cases hv
  · have h2' : 2 ≤ vs.length := by omega
    by_cases hg : (∀ X ∈ vs, 0 < X.d) ∧ k < n
    · have e := mi_ok h2' hg.1 hg.2
      refine ⟨⟨fun h => (by rw [e] at h; cases h), fun h => absurd h h2⟩, fun _ => ⟨h2', hg⟩, fun _ => ⟨_, e⟩⟩
    · have : ∃ X ∈ vs, X.d = 0 ∨ n < k + 1 := by
        by_cases hk : k < n
        · have h0 : ¬ ∀ X ∈ vs, 0 < X.d := fun h => hg ⟨h, hk⟩
          push Not at h0
          obtain ⟨X, hX, h⟩ := h0
          exact ⟨X, hX, .inl (by omega)⟩
        · cases vs with
          | nil => simp at h2
          | cons X l => exact ⟨X, List.mem_cons_self, .inr (by omega)⟩
      have e := mi_err h2' this
      refine ⟨⟨fun h => (by rw [e] at h; cases h), fun h => absurd h h2⟩, fun ⟨v, hv⟩ => ?_, fun h => absurd h.2 hg⟩
      rw [e] at hv
      cases hv

theorem entropyVal_congr {X Y : Var n} (hd : X.d = Y.d) (h : ∀ i j, sqDist X i j = sqDist Y i j) (k : Nat) :
    entropyVal X k = entropyVal Y k := by
  unfold entropyVal radius dist
  simp only [hd, h]

/-- C138: the order of the variables does not matter. -/
theorem c138_symm {vs ws : List (Var n)} (h : vs.Perm ws) (k : Nat) : mutualInformation vs k = mutualInformation ws k := by
  by_cases h2 : vs.length < 2
  · unfold mutualInformation
    rw [if_pos h2, if_pos (by rw [← h.length_eq]; exact h2)]
  · by_cases hg : ∃ X ∈ vs, X.d = 0 ∨ n < k + 1
    · rw [mi_err (by omega) hg, mi_err (by rw [← h.length_eq]; omega) (by simpa only [h.mem_iff] using hg)]
    · push Not at hg
      have hd : ∀ X ∈ vs, 0 < X.d := fun X hX => by have := (hg X hX).1; omega
      have hk : k < n := by
        cases vs with
        | nil => simp at h2
        | cons X l => have := (hg X List.mem_cons_self).2; omega
      rw [mi_ok (by omega) hd hk, mi_ok (by rw [← h.length_eq]; omega) (fun X hX => hd X (h.mem_iff.2 hX)) hk]
      congr 2
      · exact (h.map _).sum_eq
      · apply entropyVal_congr
        · rw [d_hstack, d_hstack]; exact (h.map _).sum_eq
        · intro i j
          rw [sqDist_hstack, sqDist_hstack]
          exact (h.map _).sum_eq

theorem radius_hstack {vs : List (Var n)} {X : Var n} (hX : X ∈ vs) {k : Nat} (hk : k < n) (i : Fin n) :
    radius X k i ≤ radius (hstack vs) k i := by
  unfold radius
  apply kth_mono _ _ _ _ (by simpa using hk)
  intro j _
  unfold dist
  apply Real.sqrt_le_sqrt
  rw [sqDist_hstack]
  exact List.single_le_sum (l := vs.map fun X => sqDist X i j) (by
    intro y hy
    obtain ⟨Y, -, rfl⟩ := List.mem_map.1 hy
    exact sqDist_nonneg Y i j) _ (List.mem_map.2 ⟨X, hX, rfl⟩)

/-- The mean logarithm of the radii. -/
noncomputable def meanLog (X : Var n) (k : Nat) : ℝ := (∑ i, Real.log (radius X k i + EPS)) / n

theorem sum_split (vs : List (Var n)) (k : Nat) :
    (vs.map fun X => entropyVal X k).sum = (vs.map fun X => (X.d : ℝ) * meanLog X k).sum + (vs.map fun X => Real.log (volumeUnitBall X.d)).sum +
      vs.length * (psi n - psi k) := by
  induction vs with
  | nil => simp
  | cons X l ih =>
    simp only [List.map_cons, List.sum_cons, ih, List.length_cons, Nat.cast_succ]
    unfold entropyVal
    rw [← meanLog]
    ring

theorem cast_d_hstack (vs : List (Var n)) : ((hstack vs).d : ℝ) = (vs.map fun X => (X.d : ℝ)).sum := by
  rw [d_hstack]
  induction vs with
  | nil => simp
  | cons X l ih => simp [ih]

/-- What two or more variables can at most have in common: the formula with all radii equal. -/
noncomputable def ceiling (vs : List (Var n)) (k : Nat) : ℝ :=
  (vs.map fun X => Real.log (volumeUnitBall X.d)).sum - Real.log (volumeUnitBall (vs.map Var.d).sum) +
    (vs.length - 1) * ∑ j ∈ Finset.Ico k n, (1 : ℝ) / j

theorem mi_split {vs : List (Var n)} {k : Nat} (h1 : 1 ≤ k) (hk : k < n) :
    (vs.map fun X => entropyVal X k).sum - entropyVal (hstack vs) k =
      ceiling vs k + ((vs.map fun X => (X.d : ℝ) * meanLog X k).sum - (hstack vs).d * meanLog (hstack vs) k) := by
  rw [sum_split]
  unfold ceiling entropyVal
  rw [← meanLog, ← psi_sub h1 hk.le, d_hstack]
  ring

/-- C138: the value is at most a number that depends on the numbers of columns and rows only: the distances in the joint sample are
at least those in each variable. -/
theorem c138_ceiling (vs : List (Var n)) {k : Nat} (h1 : 1 ≤ k) {v : ℝ} (h : mutualInformation vs k = .ok v) : v ≤ ceiling vs k := by
  obtain ⟨h2, hd, hk⟩ := (c138_returns vs k).2.1 ⟨v, h⟩
  rw [mi_ok h2 hd hk] at h
  cases h
  rw [mi_split h1 hk, cast_d_hstack]
  have hn : (0 : ℝ) < n := by exact_mod_cast (by omega : 0 < n)
  have key : ∀ X ∈ vs, meanLog X k ≤ meanLog (hstack vs) k := by
    intro X hX
    unfold meanLog
    apply div_le_div_of_nonneg_right _ hn.le
    apply Finset.sum_le_sum
    intro i _
    have := radius_nonneg X hk i
    have := eps_pos
    exact Real.log_le_log (by linarith) (by linarith [radius_hstack hX hk i])
  have : (vs.map fun X => (X.d : ℝ) * meanLog X k).sum ≤ (vs.map fun X => (X.d : ℝ)).sum * meanLog (hstack vs) k := by
    generalize meanLog (hstack vs) k = m at key ⊢
    clear h2 hd
    induction vs with
    | nil => simp
    | cons X l ih =>
      simp only [List.map_cons, List.sum_cons, add_mul]
      have := ih fun Y hY => key Y (List.mem_cons_of_mem _ hY)
      have := mul_le_mul_of_nonneg_left (key X List.mem_cons_self) (Nat.cast_nonneg X.d : (0 : ℝ) ≤ X.d)
      linarith
  linarith

theorem radius_const {X : Var n} (hX : ∀ i j, sqDist X i j = 0) {k : Nat} (hk : k < n) (i : Fin n) : radius X k i = 0 := by
  have := kth_mem (l := (List.finRange n).map fun j => dist X i j) (k := k) (by simpa using hk)
  obtain ⟨j, -, hj⟩ := List.mem_map.1 this
  unfold radius
  rw [← hj, dist, hX, Real.sqrt_zero]

theorem meanLog_const {X : Var n} (hX : ∀ i j, sqDist X i j = 0) {k : Nat} (hk : k < n) : meanLog X k = Real.log EPS := by
  unfold meanLog
  simp only [radius_const hX hk, zero_add, Finset.sum_const, Finset.card_univ, Fintype.card_fin, nsmul_eq_mul]
  have : (n : ℝ) ≠ 0 := by exact_mod_cast (by omega : n ≠ 0)
  field_simp

/-- C138: constant variables, which share nothing, get the greatest value there is. -/
theorem c138_constant (vs : List (Var n)) {k : Nat} (h1 : 1 ≤ k) (hk : k < n) (h2 : 2 ≤ vs.length) (hd : ∀ X ∈ vs, 0 < X.d)
    (hc : ∀ X ∈ vs, ∀ i j l, X.x i l = X.x j l) : mutualInformation vs k = .ok (ceiling vs k) := by
  have hz : ∀ X ∈ vs, ∀ i j, sqDist X i j = 0 := fun X hX i j => by
    unfold sqDist
    exact Finset.sum_eq_zero fun l _ => by rw [hc X hX i j l]; ring
  have hz' : ∀ i j, sqDist (hstack vs) i j = 0 := fun i j => by
    rw [sqDist_hstack]
    apply List.sum_eq_zero
    intro y hy
    obtain ⟨X, hX, rfl⟩ := List.mem_map.1 hy
    exact hz X hX i j
  rw [mi_ok h2 hd hk, mi_split h1 hk, cast_d_hstack, meanLog_const hz' hk]
  have : (vs.map fun X => (X.d : ℝ) * meanLog X k).sum = (vs.map fun X => (X.d : ℝ)).sum * Real.log EPS := by
    clear h2 hd hz' hc
    induction vs with
    | nil => simp
    | cons X l ih =>
      simp only [List.map_cons, List.sum_cons, add_mul]
      rw [ih fun Y hY => hz Y (List.mem_cons_of_mem _ hY), meanLog_const (hz X List.mem_cons_self) hk]
  rw [this, sub_self, add_zero]

/-- C138: the same order of the rows in all variables. -/
theorem c138_rows (vs : List (Var n)) (σ : Equiv.Perm (Fin n)) (k : Nat) :
    mutualInformation (vs.map fun X => ⟨X.d, fun i => X.x (σ i)⟩) k = mutualInformation vs k := by
  have he : entropies (vs.map fun X => ⟨X.d, fun i => X.x (σ i)⟩) k = entropies vs k := by
    unfold entropies
    rw [List.mapM_map]
    congr 1
    funext X
    exact c137_perm X σ k
  have hh : entropy (hstack (vs.map fun X : Var n => (⟨X.d, fun i => X.x (σ i)⟩ : Var n))) k = entropy (hstack vs) k := by
    rw [← c137_perm (hstack vs) σ k]
    apply entropy_congr
    · rw [d_hstack]
      show _ = (hstack vs).d
      rw [d_hstack, List.map_map]
      rfl
    · intro i j
      show _ = sqDist (hstack vs) (σ i) (σ j)
      rw [sqDist_hstack, sqDist_hstack, List.map_map]
      rfl
  unfold mutualInformation
  rw [List.length_map]
  simp only [he, hh]

theorem column_sqDist (x : Fin n → ℝ) (i j : Fin n) : sqDist (column x) i j = (x i - x j) ^ 2 := Fin.sum_univ_one _

/-- A sample with steps of at least `S` has radii of at least `S`. -/
theorem radius_steps {S : ℝ} {k : Nat} (h1 : 1 ≤ k) (hk : k < n) (i : Fin n) :
    S ≤ radius (column fun i : Fin n => (i : ℝ) * S) k i := by
  by_contra hc
  push Not at hc
  have h := kth_le (l := (List.finRange n).map fun j => dist (column fun i : Fin n => (i : ℝ) * S) i j) (k := k) (by simpa using hk)
  have : ((List.finRange n).map fun j => dist (column fun i : Fin n => (i : ℝ) * S) i j).countP
      (fun x => x ≤ radius (column fun i : Fin n => (i : ℝ) * S) k i) ≤ 1 := by
    rw [List.countP_map]
    refine le_trans (List.countP_mono_left (q := fun j => j == i) fun j _ hj => ?_) ?_
    · simp only [Function.comp, decide_eq_true_eq] at hj
      by_contra hne
      simp only [beq_iff_eq] at hne
      have : S ≤ dist (column fun i : Fin n => (i : ℝ) * S) i j := by
        unfold dist
        rw [column_sqDist]
        apply Real.le_sqrt_of_sq_le
        have hij : (1 : ℝ) ≤ ((i : ℝ) - j) ^ 2 := by
          have : (i : ℤ) - j ≠ 0 := by
            intro h0
            apply hne
            ext
            omega
          have : (1 : ℤ) ≤ ((i : ℤ) - j) ^ 2 := by
            have := sq_nonneg ((i : ℤ) - j)
            have : ((i : ℤ) - j) ^ 2 ≠ 0 := pow_ne_zero _ ‹_›
            omega
          exact_mod_cast this
        nlinarith [sq_nonneg S]
      linarith
    · rw [← List.count]
      exact List.nodup_iff_count_le_one.1 (List.nodup_finRange n) i
  unfold radius at this
  omega

/-- C138, expected: mutual information is not negative. It is below any bound: a variable and a constant. -/
theorem c138_nonneg_false {k : Nat} (h1 : 1 ≤ k) (hk : k < n) (B : ℝ) : ∃ (x : Fin n → ℝ) (v : ℝ),
    mutualInformation [column x, column fun _ => 0] k = .ok v ∧ v < B := by
  set S := Real.exp (ceiling [column (fun _ : Fin n => 0), column fun _ : Fin n => 0] k + Real.log EPS - B + 1) with hS
  have hS0 : 0 < S := Real.exp_pos _
  have hn : (0 : ℝ) < n := by exact_mod_cast (by omega : 0 < n)
  refine ⟨fun i => (i : ℝ) * S, _, mi_ok (by simp) (by simp [column]) hk, ?_⟩
  rw [mi_split h1 hk]
  have hc : ceiling [column (fun i : Fin n => (i : ℝ) * S), column fun _ => 0] k =
      ceiling [column (fun _ : Fin n => 0), column fun _ : Fin n => 0] k := rfl
  have hs : meanLog (hstack [column (fun i : Fin n => (i : ℝ) * S), column fun _ => 0]) k = meanLog (column fun i : Fin n => (i : ℝ) * S) k := by
    unfold meanLog radius dist
    simp only [sqDist_hstack]
    simp [column_sqDist]
  have hd : ((hstack [column (fun i : Fin n => (i : ℝ) * S), column fun _ => 0]).d : ℝ) = 2 := by
    rw [cast_d_hstack]; norm_num [column]
  rw [hc, hs, hd]
  have h0 : meanLog (column fun _ : Fin n => (0 : ℝ)) k = Real.log EPS := meanLog_const (by simp [column_sqDist]) hk
  have hm : Real.log S ≤ meanLog (column fun i : Fin n => (i : ℝ) * S) k := by
    unfold meanLog
    rw [le_div_iff₀ hn]
    calc Real.log S * n = ∑ _i : Fin n, Real.log S := by simp [mul_comm]
      _ ≤ _ := Finset.sum_le_sum fun i _ => Real.log_le_log hS0 (by linarith [radius_steps (S := S) h1 hk i, eps_pos])
  rw [hS, Real.log_exp] at hm
  simp only [List.map_cons, List.map_nil, List.sum_cons, List.sum_nil, h0]
  have e1 : ((column fun i : Fin n => (i : ℝ) * S).d : ℝ) = 1 := by simp [column]
  have e2 : ((column fun _ : Fin n => (0 : ℝ)).d : ℝ) = 1 := by simp [column]
  rw [e1, e2]
  linarith

theorem volume_one : volumeUnitBall 1 = 2 := by
  unfold volumeUnitBall
  have h : Real.Gamma ((1 / 2 : ℝ) * (1 : Nat) + 1) = 1 / 2 * Real.sqrt Real.pi := by
    rw [Nat.cast_one, mul_one, Real.Gamma_add_one (by norm_num), Real.Gamma_one_half_eq]
  rw [h, Nat.cast_one, mul_one, ← Real.sqrt_eq_rpow]
  have : Real.sqrt Real.pi ≠ 0 := by positivity
  field_simp

theorem volume_two : volumeUnitBall 2 = Real.pi := by
  unfold volumeUnitBall
  norm_num

theorem ceiling_pair (x y : Fin n → ℝ) (k : Nat) :
    ceiling [column x, column y] k = Real.log (4 / Real.pi) + ∑ j ∈ Finset.Ico k n, (1 : ℝ) / j := by
  unfold ceiling
  have hd : ∀ z : Fin n → ℝ, (column z).d = 1 := fun _ => rfl
  simp only [List.map_cons, List.map_nil, List.sum_cons, List.sum_nil, hd, volume_one, List.length_cons, List.length_nil]
  rw [show (1 : Nat) + (1 + 0) = 2 from rfl, volume_two, Real.log_div (by norm_num) Real.pi_pos.ne',
    show (4 : ℝ) = 2 * 2 by norm_num, Real.log_mul (by norm_num) (by norm_num)]
  push_cast
  ring

/-- The number of neighbours that `independent` uses. -/
def neighbours (n : Nat) : Nat := if n > 3000 then 15 else 10

/-- C139: `independent` returns exactly for more than ten rows, and then the absolute value of the mutual information with ten
neighbours, or fifteen for more than 3000 rows. -/
theorem c139_returns (x y : Fin n → ℝ) : ((∃ v, independent x y = .ok v) ↔ 11 ≤ n) ∧ (n < 11 → independent x y = .error .value) ∧
    (11 ≤ n → n ≤ 3000 → ∃ m, mutualInformation [column x, column y] 10 = .ok m ∧ independent x y = .ok |m|) ∧
    (3000 < n → ∃ m, mutualInformation [column x, column y] 15 = .ok m ∧ independent x y = .ok |m|) := by
  have hd : ∀ X ∈ [column x, column y], 0 < X.d := by simp [column]
  have ok : ∀ k, k < n → ∃ m, mutualInformation [column x, column y] k = .ok m := fun k hk => ⟨_, mi_ok (by simp) hd hk⟩
  have A : n < 11 → independent x y = .error .value := by
    intro h
    unfold independent
    rw [if_neg (by omega), mi_err (by simp) ⟨column x, by simp, .inr (by omega)⟩]
    rfl
  have B : 11 ≤ n → n ≤ 3000 → ∃ m, mutualInformation [column x, column y] 10 = .ok m ∧ independent x y = .ok |m| := by
    intro h1 h2
    obtain ⟨m, hm⟩ := ok 10 (by omega)
    refine ⟨m, hm, ?_⟩
    unfold independent
    rw [if_neg (by omega), hm]
    rfl
  have C : 3000 < n → ∃ m, mutualInformation [column x, column y] 15 = .ok m ∧ independent x y = .ok |m| := by
    intro h1
    obtain ⟨m, hm⟩ := ok 15 (by omega)
    refine ⟨m, hm, ?_⟩
    unfold independent
    rw [if_pos h1, hm]
    rfl
  refine ⟨⟨?_, ?_⟩, A, B, C⟩
  · rintro ⟨v, hv⟩
    by_contra h
    rw [A (by omega)] at hv
    cases hv
  · intro h
    by_cases h2 : n ≤ 3000
    · obtain ⟨m, -, e⟩ := B h h2; exact ⟨_, e⟩
    · obtain ⟨m, -, e⟩ := C (by omega); exact ⟨_, e⟩

/-- C139: symmetric. -/
theorem c139_symm (x y : Fin n → ℝ) : independent x y = independent y x := by
  unfold independent
  rw [c138_symm (List.Perm.swap (column y) (column x) [])]

/-- C139: what a variable and its copy score is known up to `log 2` beforehand, whatever the data are. -/
theorem c139_identical (x : Fin n → ℝ) {m : ℝ} {k : Nat} (h1 : 1 ≤ k) (h : mutualInformation [column x, column x] k = .ok m) :
    Real.log (4 / Real.pi) + (∑ j ∈ Finset.Ico k n, (1 : ℝ) / j) - Real.log 2 ≤ m ∧
      m ≤ Real.log (4 / Real.pi) + ∑ j ∈ Finset.Ico k n, (1 : ℝ) / j := by
  have hu := c138_ceiling _ h1 h
  rw [ceiling_pair] at hu
  refine ⟨?_, hu⟩
  obtain ⟨h2, hd, hk⟩ := (c138_returns _ k).2.1 ⟨m, h⟩
  have hn : (0 : ℝ) < n := by exact_mod_cast (by omega : 0 < n)
  rw [mi_ok h2 hd hk, mi_split h1 hk, ceiling_pair] at h
  cases h
  have hdd : ((hstack [column x, column x]).d : ℝ) = 2 := by
    rw [cast_d_hstack]; norm_num [column]
  have e1 : ((column x).d : ℝ) = 1 := by simp [column]
  have hr : ∀ i, radius (hstack [column x, column x]) k i = Real.sqrt 2 * radius (column x) k i := by
    intro i
    unfold radius
    rw [← kth_smul (by positivity) (by simpa using hk), List.map_map]
    congr 1
    apply List.map_congr_left
    intro j _
    simp only [Function.comp]
    unfold dist
    rw [← Real.sqrt_mul (by norm_num), sqDist_hstack]
    congr 1
    simp
    ring
  have hm : meanLog (hstack [column x, column x]) k ≤ meanLog (column x) k + Real.log 2 / 2 := by
    unfold meanLog
    simp only [hr]
    rw [div_le_iff₀ hn, add_mul, div_mul_cancel₀ _ hn.ne']
    have : Real.log 2 / 2 * n = ∑ _i : Fin n, Real.log (Real.sqrt 2) := by
      rw [Real.log_sqrt (by norm_num)]
      simp [mul_comm]
    rw [this, ← Finset.sum_add_distrib]
    apply Finset.sum_le_sum
    intro i _
    have h0 := radius_nonneg (column x) hk i
    have he := eps_pos
    have hs : 1 ≤ Real.sqrt 2 := Real.one_le_sqrt.2 (by norm_num)
    rw [← Real.log_mul (by linarith) (by positivity)]
    exact Real.log_le_log (by positivity) (by nlinarith)
  simp only [List.map_cons, List.map_nil, List.sum_cons, List.sum_nil, hdd, e1]
  linarith

/-- C139, expected: the score measures dependence, least for independent variables and greatest for a copy. For every number of rows
there is a variable whose score with a constant exceeds any bound, so also its score with itself. -/
theorem c139_false (hn : 11 ≤ n) (B : ℝ) : ∃ (x : Fin n → ℝ) (v : ℝ), independent x (fun _ => 0) = .ok v ∧ B < v ∧
    ∃ w, independent x x = .ok w ∧ w < v := by
  have go : ∀ k, 1 ≤ k → k < n → (if n > 3000 then 15 else 10) = k → ∃ (x : Fin n → ℝ) (v : ℝ), independent x (fun _ => 0) = .ok v ∧ B < v ∧
      ∃ w, independent x x = .ok w ∧ w < v := by
    intro k h1 hk hkk
    set c := Real.log (4 / Real.pi) + ∑ j ∈ Finset.Ico k n, (1 : ℝ) / j with hc
    obtain ⟨x, m, hm, hlt⟩ := c138_nonneg_false h1 hk (min (-B) (-(|c| + Real.log 2)))
    have hlt1 := lt_of_lt_of_le hlt (min_le_left _ _)
    have hlt2 := lt_of_lt_of_le hlt (min_le_right _ _)
    have e : independent x (fun _ => 0) = .ok |m| := by
      unfold independent
      rw [hkk, hm]
      rfl
    have hm' := mi_ok (vs := [column x, column x]) (k := k) (by simp) (by simp [column]) hk
    generalize ((List.map (fun X => entropyVal X k) [column x, column x]).sum - entropyVal (hstack [column x, column x]) k) = m' at hm'
    obtain ⟨l1, l2⟩ := c139_identical x h1 hm'
    refine ⟨x, |m|, e, ?_, |m'|, ?_, ?_⟩
    · exact lt_of_lt_of_le (by linarith) (neg_le_abs m)
    · unfold independent
      rw [hkk, hm']
      rfl
    · have h2 := Real.log_pos (by norm_num : (1 : ℝ) < 2)
      have : |m'| ≤ |c| + Real.log 2 := abs_le.2 ⟨by linarith [neg_abs_le c], by linarith [le_abs_self c]⟩
      exact lt_of_le_of_lt this (lt_of_lt_of_le (by linarith) (neg_le_abs m))
  by_cases h : n > 3000
  · exact go 15 (by norm_num) (by omega) (by rw [if_pos h])
  · exact go 10 (by norm_num) (by omega) (by rw [if_neg h])

/-- Twelve rows. -/
example : ∃ v, independent (fun i : Fin 12 => (i : ℝ)) (fun i => (i : ℝ) ^ 2) = .ok v := (c139_returns _ _).1.2 (by norm_num)
example : mutualInformation [exLine] 1 = .error .exception := (c138_returns [exLine] 1).1.2 (by simp)
example : ∃ v, mutualInformation [exLine, exLine.scale 2, exLine] 1 = .ok v ∧ v ≤ ceiling [exLine, exLine.scale 2, exLine] 1 := by
  obtain ⟨v, hv⟩ := (c138_returns [exLine, exLine.scale 2, exLine] 1).2.2 ⟨by simp, by simp [exLine, Var.scale], by norm_num⟩
  exact ⟨v, hv, c138_ceiling _ le_rfl hv⟩

end Cdmir.Mutual
