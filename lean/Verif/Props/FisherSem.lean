import Verif.Props.FisherZ
import Mathlib.Probability.Moments.Covariance

/-!
C117 for random variables: the covariances of a linear structural equation model.
-/

namespace Cdmir.Fisher
open Cdmir.Spec Matrix MeasureTheory ProbabilityTheory
open scoped ProbabilityTheory

section
variable {Ω : Type} {mΩ : MeasurableSpace Ω} {μ : Measure Ω} [IsProbabilityMeasure μ] {V : Type} [Fintype V] [DecidableEq V]

/-- Square-integrable random variables whose errors `X v - ∑ u, B v u * X u` are uncorrelated and not constant, with coefficients only on edges, have
the covariances of a `LinearModel`. -/
theorem linearModel_of_sem {R : V → V → Prop} {X : V → Ω → ℝ} (hX : ∀ v, MemLp (X v) 2 μ) {B : Matrix V V ℝ} (hB : ∀ v u, B v u ≠ 0 → R u v)
    (h0 : ∀ u v, u ≠ v → cov[fun ω => X u ω - ∑ w, B u w * X w ω, fun ω => X v ω - ∑ w, B v w * X w ω; μ] = 0)
    (h1 : ∀ v, 0 < cov[fun ω => X v ω - ∑ w, B v w * X w ω, fun ω => X v ω - ∑ w, B v w * X w ω; μ]) :
    LinearModel R (Matrix.of fun u v => cov[X u, X v; μ]) := by
  refine ⟨B, fun v => cov[fun ω => X v ω - ∑ w, B v w * X w ω, fun ω => X v ω - ∑ w, B v w * X w ω; μ], hB, h1, ?_⟩
  have e : ∀ u, (fun ω => X u ω - ∑ w, B u w * X w ω) = fun ω => ∑ i, (1 - B) u i * X i ω := by
    intro u; ext ω
    simp only [Matrix.sub_apply, Matrix.one_apply, sub_mul, ite_mul, one_mul, zero_mul, Finset.sum_sub_distrib, Finset.sum_ite_eq, Finset.mem_univ, if_true]
  have hm : ∀ u i, MemLp (fun ω => (1 - B) u i * X i ω) 2 μ := fun u i => (hX i).const_mul _
  have key : ∀ u v, cov[fun ω => X u ω - ∑ w, B u w * X w ω, fun ω => X v ω - ∑ w, B v w * X w ω; μ] =
      ((1 - B) * (Matrix.of fun u v => cov[X u, X v; μ]) * (1 - B).transpose) u v := by
    intro u v
    rw [e, e, covariance_fun_sum_left (hm u) (memLp_finsetSum _ fun i _ => hm v i), Matrix.mul_apply]
    simp only [Matrix.mul_apply, Matrix.of_apply, Matrix.transpose_apply, Finset.sum_mul]
    rw [Finset.sum_comm]
    refine Finset.sum_congr rfl fun i _ => ?_
    rw [covariance_fun_sum_right (hm v) (hm u i)]
    refine Finset.sum_congr rfl fun j _ => ?_
    rw [covariance_const_mul_left, covariance_const_mul_right]
    ring
  ext u v
  rw [← key]
  by_cases h : u = v
  · subst h; rw [Matrix.diagonal_apply_eq]
  · rw [Matrix.diagonal_apply_ne _ h, h0 u v h]

end

/-- **C117, random variables.** For the correlations of random variables generated by linear equations along a DAG with uncorrelated errors, d-separated
variables have statistic zero and, with enough records, p-value one. -/
theorem c117_random_variables {Ω : Type} {mΩ : MeasurableSpace Ω} {μ : Measure Ω} [IsProbabilityMeasure μ] {n N : ℕ} {R : Fin n → Fin n → Prop}
    (ac : Acyclic R) {X : Fin n → Ω → ℝ} (hX : ∀ v, MemLp (X v) 2 μ) {B : Matrix (Fin n) (Fin n) ℝ} (hB : ∀ v u, B v u ≠ 0 → R u v)
    (h0 : ∀ u v, u ≠ v → cov[fun ω => X u ω - ∑ w, B u w * X w ω, fun ω => X v ω - ∑ w, B v w * X w ω; μ] = 0)
    (h1 : ∀ v, 0 < cov[fun ω => X v ω - ∑ w, B v w * X w ω, fun ω => X v ω - ∑ w, B v w * X w ω; μ])
    {i j : Fin n} {zs : List (Fin n)} (hd : (i :: j :: zs).Nodup) (hs : DSep R i j (fun w => w ∈ zs)) :
    ∃ p, fisherzFromCorr (Matrix.of fun u v => cov[X u, X v; μ] / (Real.sqrt cov[X u, X u; μ] * Real.sqrt cov[X v, X v; μ])) N
        ((i : ℕ) : ℤ) ((j : ℕ) : ℤ) (some (zs.map fun k : Fin n => ((k : ℕ) : ℤ))) = .ok (p, .fin 0) ∧
      (zs.length + 3 ≤ N → p = .val 1) :=
  c117_dsep ac (linearModel_of_sem hX hB h0 h1) hd hs

end Cdmir.Fisher
