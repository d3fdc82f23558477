import Verif.Lemmas.Mutual
import Mathlib.MeasureTheory.Measure.Lebesgue.VolumeOfBalls
import Mathlib.LinearAlgebra.UnitaryGroup
import Mathlib.Analysis.Real.Pi.Bounds

/-! C137 (nearest neighbour entropy), C138 (mutual information), C139 (`independent`). -/

namespace Cdmir.Mutual
open BigOperators

variable {n : Nat}

/-- C137: `entropy` raises exactly if there are not `k` other rows, or no columns. -/
theorem c137_returns (X : Var n) (k : Nat) :
    (∃ h, entropy X k = .ok h) ↔ 0 < X.d ∧ k < n := by
  rw [entropy_eq]
  constructor
  · rintro ⟨h, e⟩
    split at e
    · cases e
    · omega
  · rintro ⟨h1, h2⟩
    rw [if_neg (by omega)]
    exact ⟨_, rfl⟩

/-- C137: the radius of a row is the distance to one of the rows; at most `k` rows, itself included, are nearer, and at least
`k + 1` rows are not farther. These numbers determine it. -/
theorem c137_radius (X : Var n) (k : Nat) {r : Fin n → ℝ} (h : nearestDistances X k = .ok r) (i : Fin n) :
    (∃ j, r i = dist X i j) ∧ (Finset.univ.filter fun j => dist X i j < r i).card ≤ k ∧
      k + 1 ≤ (Finset.univ.filter fun j => dist X i j ≤ r i).card ∧
      ∀ s, (Finset.univ.filter fun j => dist X i j < s).card ≤ k → k + 1 ≤ (Finset.univ.filter fun j => dist X i j ≤ s).card → s = r i := by
  unfold nearestDistances at h
  split at h
  · cases h
  · rename_i hd
    cases h
    have hk : k < ((List.finRange n).map fun j => dist X i j).length := by simp; omega
    have cnt : ∀ p : ℝ → Bool, ((List.finRange n).map fun j => dist X i j).countP p = (Finset.univ.filter fun j => p (dist X i j) = true).card := by
      intro p
      rw [List.countP_map, List.countP_eq_length_filter, ← List.toFinset_card_of_nodup ((List.nodup_finRange n).filter _)]
      congr 1
      ext j
      simp
    have h1 := kth_lt hk
    have h2 := kth_le hk
    rw [cnt] at h1 h2
    simp only [decide_eq_true_eq] at h1 h2
    refine ⟨?_, h1, h2, ?_⟩
    · obtain ⟨j, -, hj⟩ := List.mem_map.1 (kth_mem hk)
      exact ⟨j, hj.symm⟩
    · intro s hs1 hs2
      apply kth_unique hk
      · rw [cnt]; simpa only [decide_eq_true_eq] using hs1
      · rw [cnt]; simpa only [decide_eq_true_eq] using hs2

/-- C137: the constant is the volume of the unit ball. -/
theorem c137_volume (d : Nat) (hd : 0 < d) :
    MeasureTheory.volume (Metric.ball (0 : EuclideanSpace ℝ (Fin d)) 1) = ENNReal.ofReal (volumeUnitBall d) := by
  have : Nonempty (Fin d) := ⟨⟨0, hd⟩⟩
  rw [EuclideanSpace.volume_ball]
  simp only [ENNReal.ofReal_one, one_pow, one_mul, Fintype.card_fin]
  unfold volumeUnitBall
  congr 2
  · rw [Real.sqrt_eq_rpow, ← Real.rpow_natCast, ← Real.rpow_mul Real.pi_pos.le]
  · congr 1
    ring

/-- C137: the value, with the two `psi` turned into a sum. -/
theorem c137_value (X : Var n) {k : Nat} (h1 : 1 ≤ k) (hk : k < n) (hd : 0 < X.d) : ∃ r, nearestDistances X k = .ok r ∧
    entropy X k = .ok (X.d * ((∑ i, Real.log (r i + EPS)) / n) + Real.log (volumeUnitBall X.d) + ∑ j ∈ Finset.Ico k n, (1 : ℝ) / j) := by
  refine ⟨radius X k, ?_, ?_⟩
  · unfold nearestDistances
    rw [if_neg (by omega)]
    rfl
  · rw [entropy_eq, if_neg (by omega), ← psi_sub h1 hk.le]
    unfold entropyVal
    congr 1
    ring

/-- C137: an orthogonal map of the columns and a shift change nothing. -/
theorem c137_isometry {d : Nat} (x : Fin n → Fin d → ℝ) (Q : Matrix (Fin d) (Fin d) ℝ) (hQ : Q ∈ Matrix.orthogonalGroup (Fin d) ℝ)
    (c : Fin d → ℝ) (k : Nat) : entropy ⟨d, fun i => Q.mulVec (x i) + c⟩ k = entropy ⟨d, x⟩ k := by
  refine entropy_congr (X := ⟨d, fun i => Q.mulVec (x i) + c⟩) (Y := ⟨d, x⟩) rfl (fun i j => ?_) k
  unfold sqDist
  have hv : ∀ v : Fin d → ℝ, ∑ l, (Q.mulVec v l) ^ 2 = ∑ l, v l ^ 2 := by
    intro v
    have e1 : ∀ w : Fin d → ℝ, ∑ l, w l ^ 2 = w ⬝ᵥ w := fun w => by simp [dotProduct, sq]
    rw [e1, e1, Matrix.dotProduct_mulVec, Matrix.vecMul_mulVec, ← Matrix.dotProduct_mulVec]
    have : Q.transpose * Q = 1 := (Matrix.mem_orthogonalGroup_iff' (Fin d) ℝ).1 hQ
    rw [this, Matrix.one_mulVec]
  have := hv (x i - x j)
  rw [Matrix.mulVec_sub] at this
  simpa using this

/-- C137: the order of the rows does not matter. -/
theorem c137_perm (X : Var n) (σ : Equiv.Perm (Fin n)) (k : Nat) : entropy ⟨X.d, fun i => X.x (σ i)⟩ k = entropy X k := by
  rw [entropy_eq, entropy_eq]
  congr 1
  unfold entropyVal
  have hr : ∀ i, radius (⟨X.d, fun i => X.x (σ i)⟩ : Var n) k i = radius X k (σ i) := by
    intro i
    unfold radius
    have : (fun j => dist (⟨X.d, fun i => X.x (σ i)⟩ : Var n) i j) = (fun j => dist X (σ i) j) ∘ σ := rfl
    rw [this, ← List.map_map]
    exact kth_perm ((Equiv.Perm.map_finRange_perm σ).map _) k
  simp only [hr]
  rw [Equiv.sum_comp σ fun i => Real.log (radius X k i + EPS)]

/-- The data times `c`. -/
def Var.scale (c : ℝ) (X : Var n) : Var n := ⟨X.d, fun i l => c * X.x i l⟩

theorem radius_scale (X : Var n) {c : ℝ} (hc : 0 < c) {k : Nat} (hk : k < n) (i : Fin n) : radius (X.scale c) k i = c * radius X k i := by
  unfold radius
  rw [← kth_smul hc (by simpa using hk), List.map_map]
  congr 1
  apply List.map_congr_left
  intro j _
  simp only [Function.comp]
  unfold dist
  have : sqDist (X.scale c) i j = c ^ 2 * sqDist X i j := by
    unfold sqDist Var.scale
    rw [Finset.mul_sum]
    exact Finset.sum_congr rfl fun l _ => by ring
  rw [this, Real.sqrt_mul (sq_nonneg c), Real.sqrt_sq hc.le]

/-- C137, expected: scaling by `c` adds `d log c`. Because of the added `EPS` it adds at most that, for `c ≥ 1`, and at least nothing. -/
theorem c137_scale (X : Var n) {k : Nat} {c h h' : ℝ} (hc : 1 ≤ c) (e : entropy X k = .ok h) (e' : entropy (X.scale c) k = .ok h') :
    h ≤ h' ∧ h' ≤ h + X.d * Real.log c := by
  obtain ⟨hd, hk⟩ := (c137_returns X k).1 ⟨h, e⟩
  rw [entropy_eq, if_neg (by omega)] at e
  rw [entropy_eq, if_neg (by show ¬ (X.d = 0 ∨ _); omega)] at e'
  cases e
  cases e'
  have hn : (0 : ℝ) < n := by exact_mod_cast (by omega : 0 < n)
  have hd' : (0 : ℝ) ≤ X.d := Nat.cast_nonneg _
  have hdd : (X.scale c).d = X.d := rfl
  unfold entropyVal
  rw [hdd]
  simp only [radius_scale X (by linarith : (0 : ℝ) < c) hk]
  have key : ∀ i, Real.log (radius X k i + EPS) ≤ Real.log (c * radius X k i + EPS) ∧
      Real.log (c * radius X k i + EPS) ≤ Real.log (radius X k i + EPS) + Real.log c := by
    intro i
    have h0 := radius_nonneg X hk i
    have he := eps_pos
    constructor
    · exact Real.log_le_log (by linarith) (by nlinarith)
    · rw [← Real.log_mul (by linarith) (by linarith)]
      exact Real.log_le_log (by nlinarith) (by nlinarith)
  have s1 := Finset.sum_le_sum fun i (_ : i ∈ Finset.univ) => (key i).1
  have s2 := Finset.sum_le_sum fun i (_ : i ∈ Finset.univ) => (key i).2
  rw [Finset.sum_add_distrib, Finset.sum_const, Finset.card_univ, Fintype.card_fin, nsmul_eq_mul] at s2
  have t1 := mul_le_mul_of_nonneg_left (div_le_div_of_nonneg_right s1 hn.le) hd'
  have t2 := mul_le_mul_of_nonneg_left (div_le_div_of_nonneg_right s2 hn.le) hd'
  rw [add_div, mul_add, mul_div_cancel_left₀ _ hn.ne'] at t2
  constructor <;> linarith

/-- Three rows on a line: the distance of the middle one to its nearest neighbour is 1, and all hypotheses above are met. -/
def exLine : Var 3 := ⟨1, fun i _ => ![0, 1, 3] i⟩

example : ∃ h, entropy exLine 1 = .ok h := (c137_returns exLine 1).2 ⟨by decide, by decide⟩

theorem exLine_dist (i j : Fin 3) : dist exLine i j = |(![0, 1, 3] : Fin 3 → ℝ) i - (![0, 1, 3] : Fin 3 → ℝ) j| := by
  unfold dist sqDist exLine
  rw [← Real.sqrt_sq_eq_abs]
  congr 1
  exact Fin.sum_univ_one _

example : ∃ r, nearestDistances exLine 1 = .ok r ∧ r 1 = 1 ∧ r 2 = 2 := by
  refine ⟨radius exLine 1, ?_, ?_, ?_⟩
  · unfold nearestDistances
    rw [if_neg (by show ¬ (1 = 0 ∨ 3 < 1 + 1); decide)]
    rfl
  · refine ((kth_unique (by simp) ?_ ?_)).symm
    · rw [List.countP_map, List.countP_eq_length_filter]
      simp [List.finRange_succ, exLine_dist, List.filter_cons]
      norm_num
    · rw [List.countP_map, List.countP_eq_length_filter]
      simp [List.finRange_succ, exLine_dist, List.filter_cons]
  · refine ((kth_unique (by simp) ?_ ?_)).symm
    · rw [List.countP_map, List.countP_eq_length_filter]
      simp [List.finRange_succ, exLine_dist, List.filter_cons]
      norm_num
    · rw [List.countP_map, List.countP_eq_length_filter]
      simp [List.finRange_succ, exLine_dist, List.filter_cons]
      norm_num

/-- C137, the expected value is false: the entropy of a sample without spread does not change with its scale. -/
theorem c137_scale_false {k d : Nat} (hk : k < n) (hd : 0 < d) (v : Fin d → ℝ) (c : ℝ) : ∃ h : ℝ,
    entropy (⟨d, fun _ => v⟩ : Var n) k = .ok h ∧ entropy ((⟨d, fun _ => v⟩ : Var n).scale c) k = .ok h := by
  refine ⟨entropyVal (⟨d, fun _ => v⟩ : Var n) k, by rw [entropy_eq, if_neg (by show ¬ (d = 0 ∨ _); omega)], ?_⟩
  rw [entropy_congr (X := (⟨d, fun _ => v⟩ : Var n).scale c) (Y := (⟨d, fun _ => v⟩ : Var n)) rfl (fun i j => by simp [sqDist, Var.scale]), entropy_eq,
    if_neg (by show ¬ (d = 0 ∨ _); omega)]

end Cdmir.Mutual
