import Mathlib.Data.Real.Basic
import Mathlib.Algebra.BigOperators.Group.Finset.Basic
import Mathlib.Algebra.BigOperators.Ring.Finset
import Mathlib.Algebra.Order.BigOperators.Ring.Finset
import Mathlib.Algebra.BigOperators.Group.Finset.Piecewise
import Mathlib.Data.Fintype.BigOperators
import Mathlib.Data.Finset.Max
import Mathlib.Tactic.Linarith
import Mathlib.Tactic.Ring
import Mathlib.Tactic.Push

/-! Linear models of latent variables with measured variables, in terms of their independent sources. -/

set_option linter.unusedSectionVars false

namespace Cdmir.Hier

/-- A latent variable is a sum of its direct causes, times `direct`, and a source of its own; `total i j` is the weight of the source of `j` in `i`.
A measured variable is a load times one latent variable, plus a source of its own. All sources are independent. -/
structure LinLat (L V : Type) where
  rank : L → Nat
  direct : L → L → ℝ
  total : L → L → ℝ
  var : L → ℝ
  of : V → L
  load : V → ℝ
  noise : V → ℝ

variable {L V : Type} [Fintype L] [DecidableEq L] [Fintype V] [DecidableEq V]

/-- The causes come first, and no source is constant. -/
structure LinLat.Good (M : LinLat L V) : Prop where
  acyclic : ∀ i k, M.direct i k ≠ 0 → M.rank k < M.rank i
  total_eq : ∀ i j, M.total i j = (if i = j then 1 else 0) + ∑ k, M.direct i k * M.total k j
  var : ∀ i, 0 < M.var i
  load : ∀ v, M.load v ≠ 0
  noise : ∀ v, 0 < M.noise v

/-- The weights of the sources in a measured variable. -/
def LinLat.coef (M : LinLat L V) (v : V) : L ⊕ V → ℝ := Sum.elim (fun j => M.load v * M.total (M.of v) j) fun w => if w = v then 1 else 0

/-- The variances of the sources. -/
def LinLat.source (M : LinLat L V) : L ⊕ V → ℝ := Sum.elim M.var M.noise

/-- The covariances of the measured variables. -/
def LinLat.cov (M : LinLat L V) (u v : V) : ℝ := ∑ s, M.source s * M.coef u s * M.coef v s

variable {M : LinLat L V} (hM : M.Good)

include hM

theorem LinLat.Good.total_rank {i j : L} (h : M.total i j ≠ 0) : i = j ∨ M.rank j < M.rank i := by
  induction hr : M.rank i using Nat.strong_induction_on generalizing i with
  | _ r ih =>
    by_cases hij : i = j
    · exact Or.inl hij
    · right
      rw [hM.total_eq, if_neg hij, zero_add] at h
      obtain ⟨k, -, hk⟩ := Finset.exists_ne_zero_of_sum_ne_zero h
      have h1 := left_ne_zero_of_mul hk
      have h2 := right_ne_zero_of_mul hk
      have h3 := hM.acyclic i k h1
      rcases ih (M.rank k) (hr ▸ h3) h2 rfl with rfl | h4
      · omega
      · omega

theorem LinLat.Good.total_self (i : L) : M.total i i = 1 := by
  rw [hM.total_eq, if_pos rfl, Finset.sum_eq_zero, add_zero]
  intro k _
  by_contra h
  have h1 := hM.acyclic i k (left_ne_zero_of_mul h)
  rcases hM.total_rank (right_ne_zero_of_mul h) with rfl | h2
  · omega
  · omega

/-- A set that holds the causes of its members holds everything whose source is in them. -/
theorem LinLat.Good.total_closed {P : L → Prop} (hP : ∀ i, P i → ∀ k, M.direct i k ≠ 0 → P k) {i j : L} (hi : P i) (h : M.total i j ≠ 0) : P j := by
  induction hr : M.rank i using Nat.strong_induction_on generalizing i with
  | _ r ih =>
    by_cases hij : i = j
    · exact hij ▸ hi
    · rw [hM.total_eq, if_neg hij, zero_add] at h
      obtain ⟨k, -, hk⟩ := Finset.exists_ne_zero_of_sum_ne_zero h
      have h1 := left_ne_zero_of_mul hk
      exact ih (M.rank k) (hr ▸ hM.acyclic i k h1) (hP i hi k h1) (right_ne_zero_of_mul hk) rfl

theorem LinLat.Good.tri {h : L → ℝ} {P : L → Prop} (hz : ∀ i, P i → ∑ j, h j * M.total i j = 0)
    (hs : ∀ i, P i → ∀ j, M.total i j ≠ 0 → h j ≠ 0 → P j) {i : L} (hi : P i) : h i = 0 := by
  induction hr : M.rank i using Nat.strong_induction_on generalizing i with
  | _ r ih =>
    have h1 := hz i hi
    rw [Finset.sum_eq_single i] at h1
    · rwa [hM.total_self, mul_one] at h1
    · intro j _ hj
      by_contra hne
      have h2 := left_ne_zero_of_mul hne
      have h3 := right_ne_zero_of_mul hne
      rcases hM.total_rank h3 with e | h4
      · exact hj e.symm
      · exact h2 (ih _ (hr ▸ h4) (hs i hi j h3 h2) rfl)
    · simp

/-- A variable with a cause outside of a closed set has there a correlate that comes before it. -/
theorem LinLat.Good.correlate {P : L → Prop} [DecidablePred P] (hP : ∀ i, P i → ∀ k, M.direct i k ≠ 0 → P k) {c p : L} (hp : ¬ P p)
    (hcp : M.direct c p ≠ 0) : ∃ o, ¬ P o ∧ M.rank o < M.rank c ∧ ∑ j, (if P j then 0 else M.var j * M.total c j) * M.total o j ≠ 0 := by
  obtain ⟨q, hq, hmax⟩ := Finset.exists_max_image (Finset.univ.filter fun k => ¬ P k ∧ M.direct c k ≠ 0) M.rank ⟨p, by simp [hp, hcp]⟩
  simp only [Finset.mem_filter, Finset.mem_univ, true_and] at hq hmax
  obtain ⟨hq1, hq2⟩ := hq
  have hqc := hM.acyclic c q hq2
  have htot : M.total c q = M.direct c q := by
    rw [hM.total_eq, if_neg (fun e => by rw [e] at hqc; omega), zero_add, Finset.sum_eq_single q]
    · rw [hM.total_self, mul_one]
    · intro k _ hk
      by_contra hne
      have h1 := left_ne_zero_of_mul hne
      have h2 := right_ne_zero_of_mul hne
      have h3 : ¬ P k := fun h => hq1 (hM.total_closed hP h h2)
      have h4 := hmax k ⟨h3, h1⟩
      rcases hM.total_rank h2 with e | h5
      · exact hk e
      · omega
    · simp
  by_contra hcon
  push Not at hcon
  have := hM.tri (h := fun j => if P j then 0 else M.var j * M.total c j) (P := fun o => ¬ P o ∧ M.rank o < M.rank c)
    (fun o ho => hcon o ho.1 ho.2) (fun o ho j h1 h2 => by
      have h3 : ¬ P j := fun h => h2 (if_pos h)
      refine ⟨h3, ?_⟩
      rcases hM.total_rank h1 with rfl | h4
      · exact ho.2
      · exact h4.trans ho.2) (i := q) ⟨hq1, hqc⟩
  simp only [if_neg hq1, htot] at this
  exact mul_ne_zero (hM.var q).ne' hq2 this

/-- The weight of the source of `j` in a sum of measured variables. -/
def LinLat.weight (M : LinLat L V) (μ : V → ℝ) (j : L) : ℝ := ∑ v, μ v * (M.load v * M.total (M.of v) j)

/-- A sum of measured variables that is uncorrelated with the latent variables of a closed set is free of their sources. -/
theorem LinLat.Good.weight_zero {P : L → Prop} (hP : ∀ i, P i → ∀ k, M.direct i k ≠ 0 → P k) {μ : V → ℝ}
    (hz : ∀ k, P k → ∑ j, M.var j * M.weight μ j * M.total k j = 0) {j : L} (hj : P j) : M.weight μ j = 0 := by
  have := hM.tri (h := fun j => M.var j * M.weight μ j) hz (fun i hi j h _ => hM.total_closed hP hi h) hj
  exact (mul_eq_zero.1 this).resolve_left (hM.var j).ne'

/-- The surrogate of a variable with a cause outside of the closed set contains its source. -/
theorem LinLat.Good.weight_ne {P : L → Prop} [DecidablePred P] (hP : ∀ i, P i → ∀ k, M.direct i k ≠ 0 → P k) {μ : V → ℝ} {c1 o1 : V}
    (hc : ¬ P (M.of c1)) (ho : ¬ P (M.of o1)) (hoc : M.rank (M.of o1) < M.rank (M.of c1))
    (hcor : ∑ j, (if P j then 0 else M.var j * M.total (M.of c1) j) * M.total (M.of o1) j ≠ 0)
    (hsupp : ∀ v, μ v ≠ 0 → v = c1 ∨ v = o1 ∨ P (M.of v)) (hinj : ∀ u v, μ u ≠ 0 → μ v ≠ 0 → M.of u = M.of v → u = v) (hne : ∃ v, μ v ≠ 0)
    (hz : ∀ k, P k ∨ k = M.of c1 → ∑ j, M.var j * M.weight μ j * M.total k j = 0) : M.weight μ (M.of c1) ≠ 0 := by
  have hK : ∀ j, P j → M.weight μ j = 0 := fun j hj => hM.weight_zero hP (fun k hk => hz k (Or.inl hk)) hj
  have hout : ∀ {v j}, P (M.of v) → ¬ P j → M.total (M.of v) j = 0 := fun {v j} hv hj => by
    by_contra h
    exact hj (hM.total_closed hP hv h)
  have hoc1 : o1 ≠ c1 := fun e => by rw [e] at hoc; omega
  by_cases hμc : μ c1 = 0
  · exfalso
    have hwo : ∀ j, ¬ P j → M.weight μ j = μ o1 * (M.load o1 * M.total (M.of o1) j) := by
      intro j hj
      unfold LinLat.weight
      rw [Finset.sum_eq_single o1]
      · intro v _ hv
        by_cases hμ : μ v = 0
        · rw [hμ, zero_mul]
        · rcases hsupp v hμ with rfl | rfl | h
          · exact absurd hμc hμ
          · exact absurd rfl hv
          · rw [hout h hj, mul_zero, mul_zero]
      · simp
    have hμo : μ o1 = 0 := by
      have h1 := hz (M.of c1) (Or.inr rfl)
      have h2 : ∑ j, M.var j * M.weight μ j * M.total (M.of c1) j =
          μ o1 * M.load o1 * ∑ j, (if P j then 0 else M.var j * M.total (M.of c1) j) * M.total (M.of o1) j := by
        rw [Finset.mul_sum]
        refine Finset.sum_congr rfl fun j _ => ?_
        by_cases hj : P j
        · rw [hK j hj, if_pos hj]
          ring
        · rw [hwo j hj, if_neg hj]
          ring
      rw [h2] at h1
      rcases mul_eq_zero.1 h1 with h | h
      · exact (mul_eq_zero.1 h).resolve_right (hM.load o1)
      · exact absurd h hcor
    obtain ⟨v0, hv0⟩ := hne
    obtain ⟨v, hv, hmax⟩ := Finset.exists_max_image (Finset.univ.filter fun v => μ v ≠ 0) (fun v => M.rank (M.of v)) ⟨v0, by simp [hv0]⟩
    simp only [Finset.mem_filter, Finset.mem_univ, true_and] at hv hmax
    have hPv : P (M.of v) := by
      rcases hsupp v hv with rfl | rfl | h
      · exact absurd hμc hv
      · exact absurd hμo hv
      · exact h
    have h1 := hK _ hPv
    unfold LinLat.weight at h1
    rw [Finset.sum_eq_single v] at h1
    · rw [hM.total_self, mul_one] at h1
      exact mul_ne_zero hv (hM.load v) h1
    · intro u _ hu
      by_contra h
      have h2 := left_ne_zero_of_mul h
      rcases hM.total_rank (right_ne_zero_of_mul (right_ne_zero_of_mul h)) with e | h3
      · exact hu (hinj u v h2 hv e)
      · have := hmax u h2
        omega
    · simp
  · unfold LinLat.weight
    rw [Finset.sum_eq_single c1]
    · rw [hM.total_self, mul_one]
      exact mul_ne_zero hμc (hM.load c1)
    · intro v _ hv
      by_cases hμ : μ v = 0
      · rw [hμ, zero_mul]
      · rcases hsupp v hμ with rfl | rfl | h
        · exact absurd rfl hv
        · have : M.total (M.of v) (M.of c1) = 0 := by
            by_contra h
            rcases hM.total_rank h with e | h2
            · rw [e] at hoc
              omega
            · omega
          rw [this, mul_zero, mul_zero]
        · rw [hout h hc, mul_zero, mul_zero]
    · simp

end Cdmir.Hier
