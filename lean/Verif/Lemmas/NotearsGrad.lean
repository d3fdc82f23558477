import Verif.Lemmas.Notears
import Mathlib.Analysis.SpecialFunctions.Log.Deriv
import Mathlib.Analysis.SpecialFunctions.ExpDeriv
import Mathlib.Analysis.Calculus.Deriv.Mul
import Mathlib.Analysis.Calculus.Deriv.Pow
import Mathlib.Analysis.Calculus.Deriv.Add

/-! Derivatives of the constraint, the losses and the augmented Lagrangian along a curve of weights: proof devices. -/

namespace Cdmir.Notears
open BigOperators

variable {n d : Nat}

/-- The derivative of the `k`-th power. -/
def powD (M M' : Matrix (Fin d) (Fin d) ℝ) : Nat → Matrix (Fin d) (Fin d) ℝ
  | 0 => 0
  | k + 1 => powD M M' k * M + M ^ k * M'

theorem hasDerivAt_mul {a b c : Nat} {A : ℝ → Matrix (Fin a) (Fin b) ℝ} {B : ℝ → Matrix (Fin b) (Fin c) ℝ}
    {A' : Matrix (Fin a) (Fin b) ℝ} {B' : Matrix (Fin b) (Fin c) ℝ} {s : ℝ}
    (hA : ∀ i j, HasDerivAt (fun x => A x i j) (A' i j) s) (hB : ∀ i j, HasDerivAt (fun x => B x i j) (B' i j) s)
    (i : Fin a) (j : Fin c) : HasDerivAt (fun x => (A x * B x) i j) ((A' * B s + A s * B') i j) s := by
  simp only [Matrix.mul_apply, Matrix.add_apply]
  rw [← Finset.sum_add_distrib]
  exact HasDerivAt.fun_sum fun l _ => (hA i l).mul (hB l j)

theorem hasDerivAt_pow {M : ℝ → Matrix (Fin d) (Fin d) ℝ} {M' : Matrix (Fin d) (Fin d) ℝ} {s : ℝ}
    (h : ∀ i j, HasDerivAt (fun x => M x i j) (M' i j) s) (k : Nat) :
    ∀ i j, HasDerivAt (fun x => (M x ^ k) i j) (powD (M s) M' k i j) s := by
  induction k with
  | zero => intro i j; simpa [powD] using hasDerivAt_const s ((1 : Matrix (Fin d) (Fin d) ℝ) i j)
  | succ k ih =>
    intro i j
    simp only [pow_succ]
    exact hasDerivAt_mul ih h i j

theorem trace_powD (M M' : Matrix (Fin d) (Fin d) ℝ) (k m : Nat) :
    (powD M M' k * M ^ m).trace = k * (M ^ (k + m - 1) * M').trace := by
  induction k generalizing m with
  | zero => simp [powD]
  | succ k ih =>
    have e1 : k + (m + 1) - 1 = m + k := by omega
    have e2 : k + 1 + m - 1 = m + k := by omega
    have e3 : (M ^ k * M' * M ^ m).trace = (M ^ (m + k) * M').trace := by
      rw [Matrix.trace_mul_comm, ← Matrix.mul_assoc, ← pow_add]
    rw [powD, add_mul, Matrix.trace_add, Matrix.mul_assoc, ← pow_succ', ih (m + 1), e3, e1, e2]
    push_cast
    ring

theorem hasDerivAt_trace {M : ℝ → Matrix (Fin d) (Fin d) ℝ} {M' : Matrix (Fin d) (Fin d) ℝ} {s : ℝ}
    (h : ∀ i j, HasDerivAt (fun x => M x i j) (M' i j) s) (k : Nat) :
    HasDerivAt (fun x => (M x ^ k).trace) (k * (M s ^ (k - 1) * M').trace) s := by
  have := trace_powD (M s) M' k 0
  rw [pow_zero, Matrix.mul_one, Nat.add_zero] at this
  rw [← this]
  exact HasDerivAt.fun_sum fun i _ => hasDerivAt_pow h k i i

/-- `hW` has the gradient it reports. -/
theorem hW_deriv (hd : d ≠ 0) {W : ℝ → Matrix (Fin d) (Fin d) ℝ} {V : Matrix (Fin d) (Fin d) ℝ} {s : ℝ}
    (h : ∀ i j, HasDerivAt (fun x => W x i j) (V i j) s) :
    HasDerivAt (fun x => (hW (W x)).1) (total (had (hW (W s)).2 V)) s := by
  have hdR : (d : ℝ) ≠ 0 := by exact_mod_cast hd
  obtain ⟨D, hD⟩ : ∃ D : Matrix (Fin d) (Fin d) ℝ, ∀ i j, D i j = 2 * W s i j * V i j / d := ⟨fun i j => _, fun _ _ => rfl⟩
  have hM : ∀ i j, HasDerivAt (fun x => stepMat (had (W x) (W x)) i j) (D i j) s := by
    intro i j
    rw [hD]
    unfold stepMat had
    have := (((h i j).mul (h i j)).div_const (d : ℝ)).const_add (if i = j then (1 : ℝ) else 0)
    exact this.congr_deriv (by ring)
  have ht := (hasDerivAt_trace hM d).sub_const (d : ℝ)
  have e : (fun x => (hW (W x)).1) = fun x => (stepMat (had (W x) (W x)) ^ d).trace - (d : ℝ) := by
    funext x
    rw [hW_fst, hOf_trace hd]
  rw [e]
  refine ht.congr_deriv ?_
  symm
  rw [← total_had]
  unfold total had hW
  simp only
  rw [Finset.mul_sum]
  refine Finset.sum_congr rfl fun i _ => ?_
  rw [Finset.mul_sum]
  refine Finset.sum_congr rfl fun j _ => ?_
  rw [hD]
  change _ = (d : ℝ) * ((stepMat (had (W s) (W s)) ^ (d - 1)).transpose i j * _)
  generalize (stepMat (had (W s) (W s)) ^ (d - 1)).transpose i j = q
  field_simp

/-- Moving a factor to the other side. -/
theorem total_adjoint (X : Matrix (Fin n) (Fin d) ℝ) (R : Matrix (Fin n) (Fin d) ℝ) (V : Matrix (Fin d) (Fin d) ℝ) :
    total (had R (X * V)) = total (had (X.transpose * R) V) := by
  unfold total had
  simp only [Matrix.mul_apply, Matrix.transpose_apply, Finset.mul_sum, Finset.sum_mul]
  calc ∑ a, ∑ b, ∑ l, R a b * (X a l * V l b) = ∑ a, ∑ l, ∑ b, R a b * (X a l * V l b) :=
        Finset.sum_congr rfl fun a _ => Finset.sum_comm
    _ = ∑ l, ∑ a, ∑ b, R a b * (X a l * V l b) := Finset.sum_comm
    _ = ∑ l, ∑ b, ∑ a, R a b * (X a l * V l b) := Finset.sum_congr rfl fun l _ => Finset.sum_comm
    _ = _ := Finset.sum_congr rfl fun l _ => Finset.sum_congr rfl fun b _ => Finset.sum_congr rfl fun a _ => by ring

/-- The elementary functions over the reals. -/
noncomputable def realElem : Elem ℝ := ⟨fun x => Real.log (Real.exp 0 + Real.exp x), fun x => 1 / (1 + Real.exp (-x)), Real.exp⟩

/-- A sum of entries of a matrix of functions. -/
theorem total_deriv {L : ℝ → Matrix (Fin n) (Fin d) ℝ} {L' : Matrix (Fin n) (Fin d) ℝ} {s : ℝ}
    (h : ∀ i j, HasDerivAt (fun x => L x i j) (L' i j) s) : HasDerivAt (fun x => total (L x)) (total L') s :=
  HasDerivAt.fun_sum fun i _ => HasDerivAt.fun_sum fun j _ => h i j

theorem logaddexp_deriv (x : ℝ) : HasDerivAt realElem.logaddexp0 (realElem.sigmoid x) x := by
  unfold realElem
  simp only
  have h1 : HasDerivAt (fun x => Real.exp 0 + Real.exp x) (Real.exp x) x := (Real.hasDerivAt_exp x).const_add _
  have h2 := h1.log (by positivity)
  refine h2.congr_deriv ?_
  rw [Real.exp_zero, Real.exp_neg]
  have := Real.exp_pos x
  field_simp
  ring

/-- `loss` has the gradient it reports. -/
theorem loss_deriv {t : LossType} (ht : t ≠ .other) (X : Matrix (Fin n) (Fin d) ℝ) {W : ℝ → Matrix (Fin d) (Fin d) ℝ}
    {V : Matrix (Fin d) (Fin d) ℝ} {s : ℝ} (h : ∀ i j, HasDerivAt (fun x => W x i j) (V i j) s) :
    ∃ (f : ℝ → ℝ) (g : ℝ → Matrix (Fin d) (Fin d) ℝ), (∀ x, loss realElem t X (W x) = some (f x, g x)) ∧
      HasDerivAt f (total (had (g s) V)) s := by
  have hM : ∀ i j, HasDerivAt (fun x => (X * W x) i j) ((X * V) i j) s := by
    intro i j
    have := hasDerivAt_mul (A := fun _ => X) (A' := 0) (fun i j => hasDerivAt_const s (X i j)) h i j
    simpa using this
  have scal : ∀ (c : ℝ) (R : Matrix (Fin n) (Fin d) ℝ) (y : ℝ), y = c * total (had R (X * V)) →
      y = total (had (fun i j => c * (X.transpose * R) i j : Matrix (Fin d) (Fin d) ℝ) V) := by
    intro c R y hy
    rw [hy, total_adjoint]
    unfold total had
    rw [Finset.mul_sum]
    refine Finset.sum_congr rfl fun i _ => ?_
    rw [Finset.mul_sum]
    exact Finset.sum_congr rfl fun j _ => by ring
  cases t with
  | other => exact absurd rfl ht
  | l2 =>
    refine ⟨_, _, fun x => rfl, ?_⟩
    have := (total_deriv (L := fun x => had (fun i j => X i j - (X * W x) i j) (fun i j => X i j - (X * W x) i j))
      (L' := fun i j => -2 * ((X i j - (X * W s) i j) * (X * V) i j)) (fun i j => by
        unfold had
        have q := (hM i j).const_sub (X i j)
        exact (q.mul q).congr_deriv (by ring))).const_mul (1 / 2 / (n : ℝ))
    refine this.congr_deriv (scal _ _ _ ?_)
    unfold total had
    simp only [Finset.mul_sum]
    exact Finset.sum_congr rfl fun i _ => Finset.sum_congr rfl fun j _ => by ring
  | logistic =>
    refine ⟨_, _, fun x => rfl, ?_⟩
    refine (HasDerivAt.const_mul _ (total_deriv (L' := fun i j => (realElem.sigmoid ((X * W s) i j) - X i j) * (X * V) i j)
      fun i j => ?_)).congr_deriv (scal _ _ _ rfl)
    have q1 := (logaddexp_deriv ((X * W s) i j)).comp s (hM i j)
    have q2 := (hM i j).const_mul (X i j)
    exact (q1.sub q2).congr_deriv (by ring)
  | poisson =>
    refine ⟨_, _, fun x => rfl, ?_⟩
    refine (HasDerivAt.const_mul _ (total_deriv (L' := fun i j => (realElem.exp ((X * W s) i j) - X i j) * (X * V) i j)
      fun i j => ?_)).congr_deriv (scal _ _ _ rfl)
    have q1 := (Real.hasDerivAt_exp ((X * W s) i j)).comp s (hM i j)
    have q2 := (hM i j).const_mul (X i j)
    exact (q1.sub q2).congr_deriv (by unfold realElem; ring)

/-- `func` has the gradient it reports. -/
theorem func_deriv (hd : d ≠ 0) {t : LossType} (ht : t ≠ .other) (X : Matrix (Fin n) (Fin d) ℝ) (lambda1 rho alpha : ℝ)
    {w : ℝ → Doubled ℝ d} {v : Doubled ℝ d} {s : ℝ} (h1 : ∀ i j, HasDerivAt (fun x => (w x).1 i j) (v.1 i j) s)
    (h2 : ∀ i j, HasDerivAt (fun x => (w x).2 i j) (v.2 i j) s) :
    ∃ (f : ℝ → ℝ) (g : ℝ → Doubled ℝ d), (∀ x, func realElem t X lambda1 rho alpha (w x) = some (f x, g x)) ∧
      HasDerivAt f (total (had (g s).1 v.1) + total (had (g s).2 v.2)) s := by
  have hW' : ∀ i j, HasDerivAt (fun x => adj (w x) i j) (adj v i j) s := fun i j => (h1 i j).sub (h2 i j)
  obtain ⟨f, g, e, hf⟩ := loss_deriv ht X hW'
  have hh := hW_deriv hd hW'
  refine ⟨_, _, fun x => by unfold func; simp only [e x]; rfl, ?_⟩
  simp only
  have tot := ((total_deriv h1).add (total_deriv h2)).const_mul lambda1
  have q := ((hf.add ((hh.const_mul (1 / 2 * rho)).mul hh)).add (hh.const_mul alpha)).add tot
  refine q.congr_deriv ?_
  have key : ∀ a b : Matrix (Fin d) (Fin d) ℝ, ∀ c : ℝ, total (had a (adj v)) + c * total (had b (adj v)) +
      lambda1 * (total v.1 + total v.2) =
      total (had (fun i j => (a i j + c * b i j) + lambda1) v.1) + total (had (fun i j => -(a i j + c * b i j) + lambda1) v.2) := by
    intro a b c
    unfold total had adj
    simp only [Finset.mul_sum, ← Finset.sum_add_distrib]
    exact Finset.sum_congr rfl fun i _ => Finset.sum_congr rfl fun j _ => by ring
  refine Eq.trans ?_ (key (g s) (hW (adj (w s))).2 (rho * (hW (adj (w s))).1 + alpha))
  ring

end Cdmir.Notears
