import Verif.Model.OlcStat
import Verif.Props.FisherMethod
import Mathlib.Algebra.BigOperators.Field
import Mathlib.Data.Fin.Tuple.Basic
import Mathlib.Tactic.Linarith
import Mathlib.Tactic.LinearCombination
import Mathlib.Tactic.FieldSimp
import Mathlib.Tactic.NormNum
import Mathlib.Tactic.FinCases

/-! C157: the statistics of olc. -/

namespace Cdmir.OlcStat
open BigOperators Finset

/-! ### Normalising -/

/-- C157: a column that is not constant gets the mean zero and the variance one, and keeps its correlations: it is a rescaling. -/
theorem c157_normalize {N : Nat} {x : Fin N → ℝ} (h : ∃ i j, x i ≠ x j) :
    mean (normalize x) = 0 ∧ mean (fun i => normalize x i ^ 2) = 1 ∧ ∃ c > 0, ∀ i j, normalize x i - normalize x j = c * (x i - x j) := by
  obtain ⟨i, j, hij⟩ := h
  have hN : (0 : ℝ) < N := by
    have : 0 < N := Fin.pos i
    exact_mod_cast this
  set m := mean x with hm
  have hs : ∑ i, (x i - m) = 0 := by
    rw [Finset.sum_sub_distrib]
    simp [hm, mean]
    field_simp
    simp
  have hv : 0 < mean fun i => (x i - m) ^ 2 := by
    unfold mean
    refine div_pos (Finset.sum_pos' (fun k _ => sq_nonneg _) ?_) hN
    by_contra hc
    push Not at hc
    have hz : ∀ k, x k = m := fun k => by
      have := le_antisymm (hc k (Finset.mem_univ k)) (sq_nonneg _)
      exact sub_eq_zero.1 (pow_eq_zero_iff (two_ne_zero)|>.1 this)
    exact hij (by rw [hz i, hz j])
  have hr := Real.sqrt_pos.2 hv
  refine ⟨?_, ?_, (Real.sqrt (mean fun i => (x i - m) ^ 2))⁻¹, inv_pos.2 hr, fun i j => ?_⟩
  · change (∑ i, (x i - m) / Real.sqrt (mean fun i => (x i - m) ^ 2)) / (N : ℝ) = 0
    rw [← Finset.sum_div, hs]
    simp
  · change (∑ i, ((x i - m) / Real.sqrt (mean fun i => (x i - m) ^ 2)) ^ 2) / (N : ℝ) = 1
    simp only [div_pow, Real.sq_sqrt hv.le]
    rw [← Finset.sum_div, div_right_comm]
    exact div_self hv.ne'
  · change (x i - m) / Real.sqrt (mean fun i => (x i - m) ^ 2) - (x j - m) / Real.sqrt (mean fun i => (x i - m) ^ 2) = _
    rw [← sub_div, div_eq_inv_mul]
    ring

/-! ### The fourth cumulant -/

section
variable {N : Nat}

/-- The sum of products of deviations from the means. -/
noncomputable def dev (x : Fin N → ℝ) (i : Fin N) : ℝ := x i - (∑ i, x i) / N

/-- The fourth k-statistic of four columns. -/
noncomputable def kstat (a b c d : Fin N → ℝ) : ℝ :=
  (((N : ℝ) + 1) * N * (∑ i, dev a i * dev b i * dev c i * dev d i) - ((N : ℝ) - 1) *
    ((∑ i, dev a i * dev b i) * (∑ i, dev c i * dev d i) + (∑ i, dev a i * dev c i) * (∑ i, dev b i * dev d i) +
      (∑ i, dev a i * dev d i) * (∑ i, dev b i * dev c i))) / (((N : ℝ) - 1) * (N - 2) * (N - 3))

theorem den_ne (h : 4 ≤ N) : ((N : ℝ) - 1) * (N - 2) * (N - 3) ≠ 0 := by
  have : (4 : ℝ) ≤ N := by exact_mod_cast h
  exact mul_ne_zero (mul_ne_zero (by linarith) (by linarith)) (by linarith)

/-- C157: `xcum4` of four columns is the fourth k-statistic from four records on, not a number for one to three records, and raises for another
number of columns. -/
theorem c157_value (a b c d : Fin N → ℝ) : (4 ≤ N → xcum4 (fun i => ![a i, b i, c i, d i]) = .ok (some (kstat a b c d))) ∧
    (1 ≤ N → N ≤ 3 → xcum4 (fun i => ![a i, b i, c i, d i]) = .ok none) ∧
    ∀ m ≠ 4, ∀ X : Fin N → Fin m → ℝ, xcum4 X = .error .notImplemented := by
  refine ⟨fun h => ?_, fun h1 h3 => ?_, fun m hm X => ?_⟩
  · unfold xcum4
    rw [if_neg (by simp), if_neg (den_ne h), mul_one_div]
    simp only [sumProd, Fin.prod_univ_four]
    simp [mean]
    rfl
  · unfold xcum4
    rw [if_neg (by simp)]
    have : ((N : ℝ) - 1) * (N - 2) * (N - 3) = 0 := by
      rcases (by omega : N = 1 ∨ N = 2 ∨ N = 3) with rfl | rfl | rfl <;> norm_num
    rw [if_pos this]
    rfl
  · unfold xcum4
    rw [if_pos hm]
    rfl

theorem dev_lin (s t : ℝ) (x y : Fin N → ℝ) (i : Fin N) : dev (fun i => s * x i + t * y i) i = s * dev x i + t * dev y i := by
  unfold dev
  rw [Finset.sum_add_distrib, ← Finset.mul_sum, ← Finset.mul_sum]
  ring

theorem dev_shift (hN : N ≠ 0) (t : ℝ) (x : Fin N → ℝ) (i : Fin N) : dev (fun i => x i + t) i = dev x i := by
  have : (N : ℝ) ≠ 0 := Nat.cast_ne_zero.2 hN
  unfold dev
  rw [Finset.sum_add_distrib]
  simp
  field_simp
  ring

/-- C157: it is linear in each column, the same for all orders of the columns, and does not see shifts. -/
theorem c157_multilinear (hN : N ≠ 0) (s t : ℝ) (a a' b c d : Fin N → ℝ) :
    kstat (fun i => s * a i + t * a' i) b c d = s * kstat a b c d + t * kstat a' b c d ∧
    kstat b a c d = kstat a b c d ∧ kstat a c b d = kstat a b c d ∧ kstat a b d c = kstat a b c d ∧
    kstat (fun i => a i + t) b c d = kstat a b c d := by
  refine ⟨?_, ?_, ?_, ?_, ?_⟩
  · unfold kstat
    simp only [dev_lin, add_mul, Finset.sum_add_distrib]
    have e1 : ∀ u v w : Fin N → ℝ, ∀ r : ℝ, ∑ i, r * u i * v i * w i = r * ∑ i, u i * v i * w i := fun u v w r => by
      rw [Finset.mul_sum]; exact Finset.sum_congr rfl fun i _ => by ring
    have e4 : ∀ u : Fin N → ℝ, ∀ r : ℝ, ∑ i, r * u i * dev b i * dev c i * dev d i = r * ∑ i, u i * dev b i * dev c i * dev d i := fun u r => by
      rw [Finset.mul_sum]; exact Finset.sum_congr rfl fun i _ => by ring
    have e2 : ∀ u v : Fin N → ℝ, ∀ r : ℝ, ∑ i, r * u i * v i = r * ∑ i, u i * v i := fun u v r => by
      rw [Finset.mul_sum]; exact Finset.sum_congr rfl fun i _ => by ring
    simp only [e4, e2]
    ring
  · unfold kstat
    have h1 : ∀ x y : Fin N → ℝ, ∑ i, dev x i * dev y i = ∑ i, dev y i * dev x i := fun x y => Finset.sum_congr rfl fun i _ => mul_comm _ _
    have h2 : ∑ i, dev b i * dev a i * dev c i * dev d i = ∑ i, dev a i * dev b i * dev c i * dev d i := Finset.sum_congr rfl fun i _ => by ring
    rw [h2, h1 b a]
    ring
  · unfold kstat
    have h1 : ∀ x y : Fin N → ℝ, ∑ i, dev x i * dev y i = ∑ i, dev y i * dev x i := fun x y => Finset.sum_congr rfl fun i _ => mul_comm _ _
    have h2 : ∑ i, dev a i * dev c i * dev b i * dev d i = ∑ i, dev a i * dev b i * dev c i * dev d i := Finset.sum_congr rfl fun i _ => by ring
    rw [h2, h1 c b]
    ring
  · unfold kstat
    have h1 : ∀ x y : Fin N → ℝ, ∑ i, dev x i * dev y i = ∑ i, dev y i * dev x i := fun x y => Finset.sum_congr rfl fun i _ => mul_comm _ _
    have h2 : ∑ i, dev a i * dev b i * dev d i * dev c i = ∑ i, dev a i * dev b i * dev c i * dev d i := Finset.sum_congr rfl fun i _ => by ring
    rw [h2, h1 d c]
    ring
  · unfold kstat
    simp only [dev_shift hN]

end

/-! ### It is unbiased -/

section
variable {Ω : Type} [Fintype Ω] (p : Ω → ℝ)

/-- The mean of a function under the weights `p`. -/
def pm (u : Ω → ℝ) : ℝ := ∑ x, p x * u x

/-- The mean of a function of `n` independent draws. -/
def ex (n : Nat) (f : (Fin n → Ω) → ℝ) : ℝ := ∑ ω, (∏ i, p (ω i)) * f ω

/-- The sum over the draws. -/
def sm {n : Nat} (u : Ω → ℝ) (ω : Fin n → Ω) : ℝ := ∑ i, u (ω i)

theorem ex_succ (n : Nat) (f : (Fin (n + 1) → Ω) → ℝ) : ex p (n + 1) f = pm p fun x => ex p n fun ω => f (Fin.cons x ω) := by
  unfold ex pm
  rw [← (Fin.consEquiv fun _ : Fin (n + 1) => Ω).sum_comp, Fintype.sum_prod_type]
  refine Finset.sum_congr rfl fun x _ => ?_
  rw [Finset.mul_sum]
  refine Finset.sum_congr rfl fun ω _ => ?_
  simp [Fin.consEquiv, Fin.prod_univ_succ, mul_assoc]

omit [Fintype Ω] in
theorem sm_cons {n : Nat} (u : Ω → ℝ) (x : Ω) (ω : Fin n → Ω) : sm u (Fin.cons x ω : Fin (n + 1) → Ω) = u x + sm u ω := by
  simp [sm, Fin.sum_univ_succ]

theorem ex_add (n : Nat) (f g : (Fin n → Ω) → ℝ) : ex p n (fun ω => f ω + g ω) = ex p n f + ex p n g := by
  simp [ex, mul_add, Finset.sum_add_distrib]

theorem ex_mul (n : Nat) (c : ℝ) (f : (Fin n → Ω) → ℝ) : ex p n (fun ω => c * f ω) = c * ex p n f := by
  simp only [ex, Finset.mul_sum]
  exact Finset.sum_congr rfl fun ω _ => by ring

theorem pm_add (u v : Ω → ℝ) : pm p (fun x => u x + v x) = pm p u + pm p v := by
  simp [pm, mul_add, Finset.sum_add_distrib]

theorem pm_mul (c : ℝ) (u : Ω → ℝ) : pm p (fun x => u x * c) = pm p u * c := by
  simp only [pm, Finset.sum_mul]
  exact Finset.sum_congr rfl fun x _ => by ring

variable {p} (h1 : ∑ x, p x = 1)
include h1

theorem pm_const (c : ℝ) : pm p (fun _ => c) = c := by
  unfold pm
  rw [← Finset.sum_mul, h1, one_mul]

theorem ex_const (n : Nat) (c : ℝ) : ex p n (fun _ => c) = c := by
  induction n with
  | zero => simp [ex]
  | succ n ih => rw [ex_succ, ih, pm_const h1]

theorem ex_one (n : Nat) (u : Ω → ℝ) : ex p n (fun ω => sm u ω) = n * pm p u := by
  induction n with
  | zero => simp [ex, sm]
  | succ n ih =>
    rw [ex_succ]
    simp only [sm_cons, ex_add, ex_const h1, ih, pm_add, pm_const h1]
    push_cast
    ring

theorem ex_two (n : Nat) (u v : Ω → ℝ) : ex p n (fun ω => sm u ω * sm v ω) = n * pm p (fun x => u x * v x) + n * (n - 1) * (pm p u * pm p v) := by
  induction n with
  | zero => simp [ex, sm]
  | succ n ih =>
    rw [ex_succ]
    have e : ∀ x, ex p n (fun ω => sm u (Fin.cons x ω : Fin (n + 1) → Ω) * sm v (Fin.cons x ω : Fin (n + 1) → Ω)) =
        u x * v x + u x * ex p n (fun ω => sm v ω) + v x * ex p n (fun ω => sm u ω) + ex p n (fun ω => sm u ω * sm v ω) := by
      intro x
      have : ∀ ω : Fin n → Ω, sm u (Fin.cons x ω : Fin (n + 1) → Ω) * sm v (Fin.cons x ω : Fin (n + 1) → Ω) =
          u x * v x + u x * sm v ω + v x * sm u ω + sm u ω * sm v ω := fun ω => by rw [sm_cons, sm_cons]; ring
      simp only [this, ex_add, ex_mul, ex_const h1]
    simp only [e, pm_add, pm_mul, pm_const h1, ih, ex_one h1]
    push_cast
    ring

theorem ex_three (n : Nat) {a b : Ω → ℝ} (ha : pm p a = 0) (hb : pm p b = 0) (w : Ω → ℝ) :
    ex p n (fun ω => sm a ω * sm b ω * sm w ω) = n * pm p (fun x => a x * b x * w x) + n * (n - 1) * (pm p (fun x => a x * b x) * pm p w) := by
  induction n with
  | zero => simp [ex, sm]
  | succ n ih =>
    rw [ex_succ]
    have e : ∀ x, ex p n (fun ω => sm a (Fin.cons x ω : Fin (n + 1) → Ω) * sm b (Fin.cons x ω : Fin (n + 1) → Ω) * sm w (Fin.cons x ω : Fin (n + 1) → Ω)) =
        a x * b x * w x + a x * b x * ex p n (fun ω => sm w ω) + a x * w x * ex p n (fun ω => sm b ω) + b x * w x * ex p n (fun ω => sm a ω)
        + a x * ex p n (fun ω => sm b ω * sm w ω) + b x * ex p n (fun ω => sm a ω * sm w ω) + w x * ex p n (fun ω => sm a ω * sm b ω)
        + ex p n (fun ω => sm a ω * sm b ω * sm w ω) := by
      intro x
      have : ∀ ω : Fin n → Ω, sm a (Fin.cons x ω : Fin (n + 1) → Ω) * sm b (Fin.cons x ω : Fin (n + 1) → Ω) * sm w (Fin.cons x ω : Fin (n + 1) → Ω) =
          a x * b x * w x + a x * b x * sm w ω + a x * w x * sm b ω + b x * w x * sm a ω + a x * (sm b ω * sm w ω) + b x * (sm a ω * sm w ω)
          + w x * (sm a ω * sm b ω) + sm a ω * sm b ω * sm w ω := fun ω => by rw [sm_cons, sm_cons, sm_cons]; ring
      simp only [this, ex_add, ex_mul, ex_const h1]
    simp only [e, pm_add, pm_mul, pm_const h1, ih, ex_one h1, ex_two h1, ha, hb]
    push_cast
    ring

theorem ex_four (n : Nat) {a b c d : Ω → ℝ} (ha : pm p a = 0) (hb : pm p b = 0) (hc : pm p c = 0) (hd : pm p d = 0) :
    ex p n (fun ω => sm a ω * sm b ω * sm c ω * sm d ω) = n * pm p (fun x => a x * b x * c x * d x) +
      n * (n - 1) * (pm p (fun x => a x * b x) * pm p (fun x => c x * d x) + pm p (fun x => a x * c x) * pm p (fun x => b x * d x) +
        pm p (fun x => a x * d x) * pm p (fun x => b x * c x)) := by
  induction n with
  | zero => simp [ex, sm]
  | succ n ih =>
    rw [ex_succ]
    have e : ∀ x, ex p n (fun ω => sm a (Fin.cons x ω : Fin (n + 1) → Ω) * sm b (Fin.cons x ω : Fin (n + 1) → Ω) *
          sm c (Fin.cons x ω : Fin (n + 1) → Ω) * sm d (Fin.cons x ω : Fin (n + 1) → Ω)) =
        a x * b x * c x * d x + a x * b x * c x * ex p n (fun ω => sm d ω) + a x * b x * d x * ex p n (fun ω => sm c ω)
        + a x * c x * d x * ex p n (fun ω => sm b ω) + b x * c x * d x * ex p n (fun ω => sm a ω)
        + a x * b x * ex p n (fun ω => sm c ω * sm d ω) + a x * c x * ex p n (fun ω => sm b ω * sm d ω) + a x * d x * ex p n (fun ω => sm b ω * sm c ω)
        + b x * c x * ex p n (fun ω => sm a ω * sm d ω) + b x * d x * ex p n (fun ω => sm a ω * sm c ω) + c x * d x * ex p n (fun ω => sm a ω * sm b ω)
        + a x * ex p n (fun ω => sm b ω * sm c ω * sm d ω) + b x * ex p n (fun ω => sm a ω * sm c ω * sm d ω)
        + c x * ex p n (fun ω => sm a ω * sm b ω * sm d ω) + d x * ex p n (fun ω => sm a ω * sm b ω * sm c ω)
        + ex p n (fun ω => sm a ω * sm b ω * sm c ω * sm d ω) := by
      intro x
      have : ∀ ω : Fin n → Ω, sm a (Fin.cons x ω : Fin (n + 1) → Ω) * sm b (Fin.cons x ω : Fin (n + 1) → Ω) *
          sm c (Fin.cons x ω : Fin (n + 1) → Ω) * sm d (Fin.cons x ω : Fin (n + 1) → Ω) =
          a x * b x * c x * d x + a x * b x * c x * sm d ω + a x * b x * d x * sm c ω + a x * c x * d x * sm b ω + b x * c x * d x * sm a ω
          + a x * b x * (sm c ω * sm d ω) + a x * c x * (sm b ω * sm d ω) + a x * d x * (sm b ω * sm c ω)
          + b x * c x * (sm a ω * sm d ω) + b x * d x * (sm a ω * sm c ω) + c x * d x * (sm a ω * sm b ω)
          + a x * (sm b ω * sm c ω * sm d ω) + b x * (sm a ω * sm c ω * sm d ω) + c x * (sm a ω * sm b ω * sm d ω)
          + d x * (sm a ω * sm b ω * sm c ω) + sm a ω * sm b ω * sm c ω * sm d ω := fun ω => by
        rw [sm_cons, sm_cons, sm_cons, sm_cons]; ring
      simp only [this, ex_add, ex_mul, ex_const h1]
    simp only [e, pm_add, pm_mul, pm_const h1, ih, ex_one h1, ex_two h1, ha, hb, hc, hd]
    push_cast
    ring

omit h1 [Fintype Ω] in
/-- The statistic in terms of sums of the draws. -/
theorem kstat_sums {n : Nat} (hn : (n : ℝ) ≠ 0) (a b c d : Ω → ℝ) (ω : Fin n → Ω) :
    let s := fun u : Ω → ℝ => sm u ω
    kstat (fun i => a (ω i)) (fun i => b (ω i)) (fun i => c (ω i)) (fun i => d (ω i)) =
    (((n : ℝ) + 1) * n * (s (fun x => a x * b x * c x * d x)
        - (s a * s (fun x => b x * c x * d x) + s b * s (fun x => a x * c x * d x) + s c * s (fun x => a x * b x * d x) + s d * s (fun x => a x * b x * c x)) / n
        + (s a * s b * s (fun x => c x * d x) + s a * s c * s (fun x => b x * d x) + s a * s d * s (fun x => b x * c x)
          + s b * s c * s (fun x => a x * d x) + s b * s d * s (fun x => a x * c x) + s c * s d * s (fun x => a x * b x)) / n ^ 2
        - 3 * (s a * s b * s c * s d) / n ^ 3)
      - ((n : ℝ) - 1) * (
        (s (fun x => a x * b x) - s a * s b / n) * (s (fun x => c x * d x) - s c * s d / n)
        + (s (fun x => a x * c x) - s a * s c / n) * (s (fun x => b x * d x) - s b * s d / n)
        + (s (fun x => a x * d x) - s a * s d / n) * (s (fun x => b x * c x) - s b * s c / n)))
      / (((n : ℝ) - 1) * (n - 2) * (n - 3)) := by
  intro s
  have two : ∀ u v : Ω → ℝ, ∑ i, dev (fun i => u (ω i)) i * dev (fun i => v (ω i)) i = s (fun x => u x * v x) - s u * s v / n := by
    intro u v
    have : ∀ i, dev (fun i => u (ω i)) i * dev (fun i => v (ω i)) i =
        u (ω i) * v (ω i) - s v / n * u (ω i) - s u / n * v (ω i) + s u / n * (s v / n) := by
      intro i; unfold dev; change (u (ω i) - s u / n) * (v (ω i) - s v / n) = _; ring
    rw [Finset.sum_congr rfl fun i _ => this i, Finset.sum_add_distrib, Finset.sum_sub_distrib, Finset.sum_sub_distrib, ← Finset.mul_sum, ← Finset.mul_sum]
    change s (fun x => u x * v x) - s v / n * s u - s u / n * s v + _ = _
    simp
    field_simp
    ring
  have four : ∑ i, dev (fun i => a (ω i)) i * dev (fun i => b (ω i)) i * dev (fun i => c (ω i)) i * dev (fun i => d (ω i)) i =
      s (fun x => a x * b x * c x * d x)
        - (s a * s (fun x => b x * c x * d x) + s b * s (fun x => a x * c x * d x) + s c * s (fun x => a x * b x * d x) + s d * s (fun x => a x * b x * c x)) / n
        + (s a * s b * s (fun x => c x * d x) + s a * s c * s (fun x => b x * d x) + s a * s d * s (fun x => b x * c x)
          + s b * s c * s (fun x => a x * d x) + s b * s d * s (fun x => a x * c x) + s c * s d * s (fun x => a x * b x)) / n ^ 2
        - 3 * (s a * s b * s c * s d) / n ^ 3 := by
    have : ∀ i, dev (fun i => a (ω i)) i * dev (fun i => b (ω i)) i * dev (fun i => c (ω i)) i * dev (fun i => d (ω i)) i =
        a (ω i) * b (ω i) * c (ω i) * d (ω i)
        - s a / n * (b (ω i) * c (ω i) * d (ω i)) - s b / n * (a (ω i) * c (ω i) * d (ω i)) - s c / n * (a (ω i) * b (ω i) * d (ω i)) - s d / n * (a (ω i) * b (ω i) * c (ω i))
        + s a / n * (s b / n) * (c (ω i) * d (ω i)) + s a / n * (s c / n) * (b (ω i) * d (ω i)) + s a / n * (s d / n) * (b (ω i) * c (ω i))
        + s b / n * (s c / n) * (a (ω i) * d (ω i)) + s b / n * (s d / n) * (a (ω i) * c (ω i)) + s c / n * (s d / n) * (a (ω i) * b (ω i))
        - s a / n * (s b / n) * (s c / n) * d (ω i) - s a / n * (s b / n) * (s d / n) * c (ω i) - s a / n * (s c / n) * (s d / n) * b (ω i) - s b / n * (s c / n) * (s d / n) * a (ω i)
        + s a / n * (s b / n) * (s c / n) * (s d / n) := by
      intro i; unfold dev
      change (a (ω i) - s a / n) * (b (ω i) - s b / n) * (c (ω i) - s c / n) * (d (ω i) - s d / n) = _; ring
    rw [Finset.sum_congr rfl fun i _ => this i]
    simp only [Finset.sum_add_distrib, Finset.sum_sub_distrib, ← Finset.mul_sum]
    change s (fun x => a x * b x * c x * d x) - s a / n * s (fun x => b x * c x * d x) - s b / n * s (fun x => a x * c x * d x)
      - s c / n * s (fun x => a x * b x * d x) - s d / n * s (fun x => a x * b x * c x)
      + s a / n * (s b / n) * s (fun x => c x * d x) + s a / n * (s c / n) * s (fun x => b x * d x) + s a / n * (s d / n) * s (fun x => b x * c x)
      + s b / n * (s c / n) * s (fun x => a x * d x) + s b / n * (s d / n) * s (fun x => a x * c x) + s c / n * (s d / n) * s (fun x => a x * b x)
      - s a / n * (s b / n) * (s c / n) * s d - s a / n * (s b / n) * (s d / n) * s c - s a / n * (s c / n) * (s d / n) * s b - s b / n * (s c / n) * (s d / n) * s a + _ = _
    simp only [Finset.sum_const, Finset.card_univ, Fintype.card_fin, nsmul_eq_mul]
    field_simp
    ring
  unfold kstat
  rw [four, two, two, two, two, two, two]

theorem unbiased_centred {n : Nat} (hn : 4 ≤ n) {a b c d : Ω → ℝ} (ha : pm p a = 0) (hb : pm p b = 0) (hc : pm p c = 0) (hd : pm p d = 0) :
    ex p n (fun ω => kstat (fun i => a (ω i)) (fun i => b (ω i)) (fun i => c (ω i)) (fun i => d (ω i))) =
      pm p (fun x => a x * b x * c x * d x) - pm p (fun x => a x * b x) * pm p (fun x => c x * d x)
        - pm p (fun x => a x * c x) * pm p (fun x => b x * d x) - pm p (fun x => a x * d x) * pm p (fun x => b x * c x) := by
  have h4 : (4 : ℝ) ≤ n := by exact_mod_cast hn
  have hn0 : (n : ℝ) ≠ 0 := by linarith
  have hd0 := den_ne hn
  set D := ((n : ℝ) - 1) * (n - 2) * (n - 3) with hD
  have e : ∀ ω : Fin n → Ω, kstat (fun i => a (ω i)) (fun i => b (ω i)) (fun i => c (ω i)) (fun i => d (ω i)) =
      ((n + 1) * n / D) * sm (fun x => a x * b x * c x * d x) ω
      + (-(n + 1) / D) * (sm a ω * sm (fun x => b x * c x * d x) ω) + (-(n + 1) / D) * (sm b ω * sm (fun x => a x * c x * d x) ω)
      + (-(n + 1) / D) * (sm c ω * sm (fun x => a x * b x * d x) ω) + (-(n + 1) / D) * (sm d ω * sm (fun x => a x * b x * c x) ω)
      + ((n + 1) / n / D + (n - 1) / n / D) * (sm a ω * sm b ω * sm (fun x => c x * d x) ω)
      + ((n + 1) / n / D + (n - 1) / n / D) * (sm a ω * sm c ω * sm (fun x => b x * d x) ω)
      + ((n + 1) / n / D + (n - 1) / n / D) * (sm a ω * sm d ω * sm (fun x => b x * c x) ω)
      + ((n + 1) / n / D + (n - 1) / n / D) * (sm b ω * sm c ω * sm (fun x => a x * d x) ω)
      + ((n + 1) / n / D + (n - 1) / n / D) * (sm b ω * sm d ω * sm (fun x => a x * c x) ω)
      + ((n + 1) / n / D + (n - 1) / n / D) * (sm c ω * sm d ω * sm (fun x => a x * b x) ω)
      + (-3 * (n + 1) / n ^ 2 / D - 3 * (n - 1) / n ^ 2 / D) * (sm a ω * sm b ω * sm c ω * sm d ω)
      + (-(n - 1) / D) * (sm (fun x => a x * b x) ω * sm (fun x => c x * d x) ω)
      + (-(n - 1) / D) * (sm (fun x => a x * c x) ω * sm (fun x => b x * d x) ω)
      + (-(n - 1) / D) * (sm (fun x => a x * d x) ω * sm (fun x => b x * c x) ω) := by
    intro ω
    rw [kstat_sums hn0, ← hD]
    field_simp
    ring
  simp only [e, ex_add, ex_mul]
  rw [ex_one h1, ex_four h1 n ha hb hc hd]
  simp only [ex_two h1, ex_three h1 n ha hb, ex_three h1 n ha hc, ex_three h1 n ha hd, ex_three h1 n hb hc, ex_three h1 n hb hd, ex_three h1 n hc hd,
    ha, hb, hc, hd]
  have r1 : pm p (fun x => a x * (b x * c x * d x)) = pm p fun x => a x * b x * c x * d x := congrArg _ (funext fun x => by ring)
  have r2 : pm p (fun x => b x * (a x * c x * d x)) = pm p fun x => a x * b x * c x * d x := congrArg _ (funext fun x => by ring)
  have r3 : pm p (fun x => c x * (a x * b x * d x)) = pm p fun x => a x * b x * c x * d x := congrArg _ (funext fun x => by ring)
  have r4 : pm p (fun x => d x * (a x * b x * c x)) = pm p fun x => a x * b x * c x * d x := congrArg _ (funext fun x => by ring)
  have r5 : pm p (fun x => a x * b x * (c x * d x)) = pm p fun x => a x * b x * c x * d x := congrArg _ (funext fun x => by ring)
  have r6 : pm p (fun x => a x * c x * (b x * d x)) = pm p fun x => a x * b x * c x * d x := congrArg _ (funext fun x => by ring)
  have r7 : pm p (fun x => a x * d x * (b x * c x)) = pm p fun x => a x * b x * c x * d x := congrArg _ (funext fun x => by ring)
  have r8 : pm p (fun x => b x * c x * (a x * d x)) = pm p fun x => a x * b x * c x * d x := congrArg _ (funext fun x => by ring)
  have r9 : pm p (fun x => b x * d x * (a x * c x)) = pm p fun x => a x * b x * c x * d x := congrArg _ (funext fun x => by ring)
  have r10 : pm p (fun x => c x * d x * (a x * b x)) = pm p fun x => a x * b x * c x * d x := congrArg _ (funext fun x => by ring)
  rw [r1, r2, r3, r4, r5, r6, r7, r8, r9, r10]
  have h2' : (n : ℝ) - 1 ≠ 0 := by linarith
  have h3' : (n : ℝ) - 2 ≠ 0 := by linarith
  have h4' : (n : ℝ) - 3 ≠ 0 := by linarith
  rw [hD]
  field_simp
  ring

/-- C157: `xcum4` is unbiased: for every distribution on finitely many values of the four variables and every number of records from four
on, its mean over independent records is the fourth cumulant. -/
theorem c157_unbiased {n : Nat} (hn : 4 ≤ n) (a b c d : Ω → ℝ) :
    let m := fun u : Ω → ℝ => ∑ x, p x * u x
    let dv := fun (u : Ω → ℝ) (x : Ω) => u x - ∑ x, p x * u x
    (∑ ω : Fin n → Ω, (∏ i, p (ω i)) * kstat (fun i => a (ω i)) (fun i => b (ω i)) (fun i => c (ω i)) (fun i => d (ω i))) =
      m (fun x => dv a x * dv b x * dv c x * dv d x) - m (fun x => dv a x * dv b x) * m (fun x => dv c x * dv d x)
        - m (fun x => dv a x * dv c x) * m (fun x => dv b x * dv d x) - m (fun x => dv a x * dv d x) * m (fun x => dv b x * dv c x) := by
  intro m dv
  have hz : ∀ u, pm p (dv u) = 0 := by
    intro u
    change ∑ x, p x * (u x - ∑ x, p x * u x) = 0
    simp only [mul_sub, Finset.sum_sub_distrib, ← Finset.sum_mul, h1, one_mul, sub_self]
  have key := unbiased_centred h1 hn (hz a) (hz b) (hz c) (hz d)
  have hk : ∀ ω : Fin n → Ω, kstat (fun i => dv a (ω i)) (fun i => dv b (ω i)) (fun i => dv c (ω i)) (fun i => dv d (ω i)) =
      kstat (fun i => a (ω i)) (fun i => b (ω i)) (fun i => c (ω i)) (fun i => d (ω i)) := by
    intro ω
    have hdv : ∀ (u : Ω → ℝ) i, dev (fun i => dv u (ω i)) i = dev (fun i => u (ω i)) i := fun u i => by
      have := dev_shift (by omega : n ≠ 0) (-∑ x, p x * u x) (fun i => u (ω i)) i
      simpa [dv, sub_eq_add_neg] using this
    unfold kstat
    simp only [hdv]
  simp only [hk] at key
  exact key

end

/-! ### The loading -/

theorem cov_lin {N : Nat} (s t : ℝ) (x y z : Fin N → ℝ) : cov (fun i => s * x i + t * y i) z = s * cov x z + t * cov y z := by
  have : ∀ i, (s * x i + t * y i) - mean (fun i => s * x i + t * y i) = s * (x i - mean x) + t * (y i - mean y) := fun i => dev_lin s t x y i
  unfold cov
  simp only [this, add_mul, Finset.sum_add_distrib, mul_assoc, ← Finset.mul_sum]
  ring

theorem cov_symm {N : Nat} (x z : Fin N → ℝ) : cov x z = cov z x := by
  unfold cov
  congr 1
  exact Finset.sum_congr rfl fun i _ => mul_comm _ _

set_option linter.unusedSimpArgs false in
/-- C157: for records in which `x = a L + e` and `z = b L + f`, where the covariances and fourth cumulants that mix `L`, `e` and `f` vanish
(as they do for independent ones), the loading of `z` is the size of `b` times the standard deviation of `L`. Only the size: the sign
is lost. -/
theorem c157_loading {N : Nat} (hN : 4 ≤ N) {L e f : Fin N → ℝ} {a b : ℝ} (ha : a ≠ 0) (hb : b ≠ 0) (hk : kstat L L L L ≠ 0)
    (c1 : cov L e = 0) (c2 : cov L f = 0) (c3 : cov e f = 0)
    (k1 : kstat L L L e = 0) (k2 : kstat L L L f = 0) (k3 : kstat L L e e = 0) (k4 : kstat L L f f = 0) (k5 : kstat L L e f = 0)
    (k6 : kstat L e e f = 0) (k7 : kstat L e f f = 0) (k8 : kstat e e f f = 0) (k9 : kstat L f f f = 0) (k10 : kstat e f f f = 0) :
    loading (fun i => a * L i + 1 * e i) (fun i => b * L i + 1 * f i) = .ok (some (|b| * Real.sqrt (cov L L))) := by
  have hN0 : N ≠ 0 := by omega
  have sw1 := fun x y z w : Fin N → ℝ => (c157_multilinear hN0 0 0 x x y z w).2.1
  have sw2 := fun x y z w : Fin N → ℝ => (c157_multilinear hN0 0 0 x x y z w).2.2.1
  have sw3 := fun x y z w : Fin N → ℝ => (c157_multilinear hN0 0 0 x x y z w).2.2.2.1
  have l1 := fun (s t : ℝ) (x x' y z w : Fin N → ℝ) => (c157_multilinear hN0 s t x x' y z w).1
  have l2 : ∀ (s t : ℝ) (x x' y z w : Fin N → ℝ), kstat y (fun i => s * x i + t * x' i) z w = s * kstat y x z w + t * kstat y x' z w := by
    intro s t x x' y z w
    rw [sw1, l1, sw1 x y, sw1 x' y]
  have l3 : ∀ (s t : ℝ) (x x' y z w : Fin N → ℝ), kstat y z (fun i => s * x i + t * x' i) w = s * kstat y z x w + t * kstat y z x' w := by
    intro s t x x' y z w
    rw [sw2, l2, sw2 y x z, sw2 y x' z]
  have l4 : ∀ (s t : ℝ) (x x' y z w : Fin N → ℝ), kstat y z w (fun i => s * x i + t * x' i) = s * kstat y z w x + t * kstat y z w x' := by
    intro s t x x' y z w
    rw [sw3, l3, sw3 y z x, sw3 y z x']
  -- every mixed cumulant in the order of its letters
  have m1 : kstat L L e L = 0 := by rw [sw3]; exact k1
  have m2 : kstat L L f L = 0 := by rw [sw3]; exact k2
  have m3 : kstat L e L L = 0 := by rw [sw2]; exact m1
  have m4 : kstat L f L L = 0 := by rw [sw2]; exact m2
  have m5 : kstat e L L L = 0 := by rw [sw1]; exact m3
  have m6 : kstat L f L f = 0 := by rw [sw2]; exact k4
  have m7 : kstat L f f L = 0 := by rw [sw3]; exact m6
  have m8 : kstat L e L f = 0 := by rw [sw2]; exact k5
  have m9 : kstat L e f L = 0 := by rw [sw3]; exact m8
  have m10 : kstat e L L f = 0 := by rw [sw1]; exact m8
  have m11 : kstat e L f L = 0 := by rw [sw1]; exact m9
  have m12 : kstat e f L L = 0 := by rw [sw2]; exact m11
  have m13 : kstat e L f f = 0 := by rw [sw1]; exact k7
  have m14 : kstat e f L f = 0 := by rw [sw2]; exact m13
  have m15 : kstat e f f L = 0 := by rw [sw3]; exact m14
  have m16 : kstat e e L L = 0 := by rw [sw2, sw1, sw3, sw2]; exact k3
  have m17 : kstat e e L f = 0 := by rw [sw2, sw1]; exact k6
  have m18 : kstat e e f L = 0 := by rw [sw3]; exact m17
  have A : kstat (fun i => a * L i + 1 * e i) (fun i => b * L i + 1 * f i) (fun i => b * L i + 1 * f i) (fun i => b * L i + 1 * f i) =
      a * b ^ 3 * kstat L L L L := by
    simp only [l1, l2, l3, l4, k2, k4, k9, k10, m2, m4, m5, m6, m7, m10, m11, m12, m13, m14, m15]
    ring
  have B : kstat (fun i => a * L i + 1 * e i) (fun i => a * L i + 1 * e i) (fun i => b * L i + 1 * f i) (fun i => b * L i + 1 * f i) =
      a ^ 2 * b ^ 2 * kstat L L L L := by
    simp only [l1, l2, l3, l4, k1, k2, k3, k4, k5, k6, k7, k8, k9, k10, m1, m2, m3, m4, m5, m6, m7, m8, m9, m10, m11, m12, m13, m14, m15, m16, m17, m18]
    ring
  have C : cov (fun i => b * L i + 1 * f i) (fun i => a * L i + 1 * e i) = a * b * cov L L := by
    rw [cov_lin, cov_symm L, cov_symm f, cov_lin, cov_lin, cov_symm e L, c1, cov_symm e f, cov_symm f e, c3, c2]
    ring
  unfold loading
  rw [(c157_value _ _ _ _).1 hN, (c157_value _ _ _ _).1 hN, A, B]
  have hb0 : a ^ 2 * b ^ 2 * kstat L L L L ≠ 0 := by positivity
  change Except.ok (if a ^ 2 * b ^ 2 * kstat L L L L = 0 then none else _) = _
  rw [if_neg hb0, C]
  have hv : 0 ≤ cov L L := by
    have : (4 : ℝ) ≤ N := by exact_mod_cast hN
    exact div_nonneg (Finset.sum_nonneg fun i _ => mul_self_nonneg _) (by linarith)
  have : a * b * cov L L * (a * b ^ 3 * kstat L L L L) / (a ^ 2 * b ^ 2 * kstat L L L L) = b ^ 2 * cov L L := by
    field_simp
  rw [this, abs_of_nonneg (mul_nonneg (sq_nonneg _) hv), Real.sqrt_mul (sq_nonneg _), Real.sqrt_sq_eq_abs]

/-! ### Combining p-values -/

theorem fisherStat_pos (l : List ℝ) (h : ∀ p ∈ l, 0 < p) : HsicTest.fisherStat l = .ok (-2 * (l.map Real.log).sum) := by
  induction l with
  | nil => simp [HsicTest.fisherStat, pure, Except.pure]
  | cons p t ih =>
    have hp := h p List.mem_cons_self
    have := ih fun q hq => h q (List.mem_cons_of_mem _ hq)
    unfold HsicTest.fisherStat
    simp only [if_neg hp.ne', if_neg (not_le.2 hp), this]
    simp [bind, Except.bind, pure, Except.pure]
    ring

/-- C157: `fisher_test` is Fisher's method on the clipped p-values; one that is not a number counts as the smallest. -/
theorem c157_fisher {ps : List (Option ℝ)} (hl : ps ≠ []) (h1 : ∀ p ∈ ps, ∀ q, p = some q → q ≤ 1) :
    let P := (ps.map fun p => p.elim (1 / 100000) fun q => max q (1 / 100000)).prod
    fisherPval ps = some (P * ∑ k ∈ range ps.length, (-Real.log P) ^ k / (k.factorial : ℝ)) := by
  intro P
  have hc : ∀ p, clip p = p.elim (1 / 100000) fun q => max q (1 / 100000) := by
    intro p
    cases p with
    | none => rfl
    | some q =>
      simp only [clip, Option.elim]
      split
      · rename_i h; exact (max_eq_left h).symm
      · rename_i h; exact (max_eq_right (not_le.1 h).le).symm
  set l := ps.map clip with hlist
  have hP : P = l.prod := congrArg List.prod (List.map_congr_left fun p _ => (hc p).symm)
  have hpos : ∀ p ∈ l, 0 < p := by
    intro p hp
    obtain ⟨q, -, rfl⟩ := List.mem_map.1 hp
    rw [hc]
    cases q with
    | none => norm_num
    | some q => exact lt_max_of_lt_right (by norm_num)
  have hle : ∀ p ∈ l, p ≤ 1 := by
    intro p hp
    obtain ⟨q, hq, rfl⟩ := List.mem_map.1 hp
    rw [hc]
    cases hq' : q with
    | none => norm_num
    | some r => exact max_le (h1 q hq r hq') (by norm_num)
  have hne : l ≠ [] := by simpa [l] using hl
  have key := HsicTest.c148_value hne hpos hle 0
  have hstat := fisherStat_pos l hpos
  unfold HsicTest.fisherTest at key
  rw [hstat] at key
  have hlen : l.length = ps.length := by simp [l]
  unfold fisherPval
  have hs : (ps.map fun p => Real.log (clip p)) = l.map Real.log := by simp [l]
  rw [hP, ← hlen]
  simp only [hs]
  have key := Except.ok.inj key
  cases hm : (HsicTest.chi2Cdf l.length (-2 * (l.map Real.log).sum)).map (1 - ·) with
  | none => rw [hm] at key; simp at key
  | some v =>
    rw [hm] at key
    simp only [Prod.mk.injEq] at key
    exact key.2

/-- C157: one p-value is returned as it is, but never below 0.00001. -/
theorem c157_single (p : Option ℝ) (h : ∀ q, p = some q → q ≤ 1) :
    fisherPval [p] = some (p.elim (1 / 100000) fun q => max q (1 / 100000)) := by
  have := c157_fisher (ps := [p]) (by simp) (by simpa using fun q hq => h q hq)
  simpa using this

/-- C157: smaller p-values never give a larger combined value, unlike with `FisherTest` of C148. -/
theorem c157_monotone {l l' : List ℝ} (h : List.Forall₂ (· ≤ ·) l l') {p p' : ℝ} (e : fisherPval (l.map some) = some p)
    (e' : fisherPval (l'.map some) = some p') : p ≤ p' := by
  have hlen := h.length_eq
  have hs : (l.map fun p => Real.log (clip (some p))).sum ≤ (l'.map fun p => Real.log (clip (some p))).sum := by
    clear e e' hlen
    induction h with
    | nil => simp
    | cons hab _ ih =>
      simp only [List.map_cons, List.sum_cons]
      refine add_le_add (Real.log_le_log ?_ ?_) ih
      · unfold clip
        dsimp only
        split
        · rename_i h; linarith
        · norm_num
      · unfold clip
        dsimp only
        split <;> split <;> linarith
  unfold fisherPval HsicTest.chi2Cdf at e e'
  simp only [List.length_map, List.map_map, Function.comp_def] at e e'
  rw [hlen] at e
  by_cases h0 : l'.length = 0
  · simp [h0] at e
  · simp only [if_neg h0, Option.map_some, Option.some.injEq] at e e'
    rw [← e, ← e']
    have := ProbabilityTheory.monotone_cdf (ProbabilityTheory.gammaMeasure (l'.length : ℝ) (1 / 2))
      (by linarith : -2 * (l'.map fun p => Real.log (clip (some p))).sum ≤ -2 * (l.map fun p => Real.log (clip (some p))).sum)
    linarith

/-- C157: there is no value for the empty list and one between 0 and 1 for every other; the order does not matter. -/
theorem c157_range (ps : List (Option ℝ)) : (fisherPval ps = none ↔ ps = []) ∧ (∀ p, fisherPval ps = some p → 0 ≤ p ∧ p ≤ 1) ∧
    ∀ qs, ps.Perm qs → fisherPval ps = fisherPval qs := by
  refine ⟨?_, fun p h => ?_, fun qs h => ?_⟩
  · unfold fisherPval HsicTest.chi2Cdf
    by_cases h : ps = []
    · simp [h]
    · simp [h]
  · unfold fisherPval HsicTest.chi2Cdf at h
    by_cases h0 : ps.length = 0
    · simp [h0] at h
    · simp only [if_neg h0, Option.map_some, Option.some.injEq] at h
      rw [← h]
      have h1 := ProbabilityTheory.cdf_nonneg (ProbabilityTheory.gammaMeasure (ps.length : ℝ) (1 / 2)) (-2 * (ps.map fun p => Real.log (clip p)).sum)
      have h2 := ProbabilityTheory.cdf_le_one (ProbabilityTheory.gammaMeasure (ps.length : ℝ) (1 / 2)) (-2 * (ps.map fun p => Real.log (clip p)).sum)
      exact ⟨by linarith, by linarith⟩
  · unfold fisherPval
    simp only [(h.map _).sum_eq, h.length_eq]

/-- Two p-values, one of them not a number. -/
example : fisherPval [some (1 / 10), none] = some (1 / 10 * (1 / 100000) * (1 + -Real.log (1 / 10 * (1 / 100000)))) := by
  have := c157_fisher (ps := [some (1 / 10), none]) (by simp) (by simp; norm_num)
  rw [this]
  simp [sum_range_succ]
  rw [show max (10⁻¹ : ℝ) 100000⁻¹ = 10⁻¹ by norm_num]

/-- Four records: the k-statistic of (0, 0, 0, 4) with itself. -/
example : let x : Fin 4 → ℝ := fun i => if i = 3 then 4 else 0
    kstat x x x x = 64 := by
  intro x
  simp only [kstat, dev, Fin.sum_univ_four, x]
  norm_num [Fin.ext_iff]

/-- Eight records for the loading: the noise of `x` has no covariance and no mixed fourth cumulant with the factor. -/
example : let t := Real.sqrt (10 / 7)
    let L : Fin 8 → ℝ := ![1, 1, -1, -1, 1, -1, 0, 0]
    let e : Fin 8 → ℝ := ![1, -1, 1, -1, 0, 0, t, -t]
    loading (fun i => 2 * L i + 1 * e i) (fun i => -3 * L i + 1 * (0 : ℝ)) = .ok (some (|-3| * Real.sqrt (cov L L))) := by
  intro t L e
  have ht : t * t = 10 / 7 := Real.mul_self_sqrt (by norm_num)
  have dL : ∀ i, dev L i = L i := fun i => by
    have : ∑ i, L i = 0 := by simp [L, Fin.sum_univ_succ]
    simp [dev, this]
  have de : ∀ i, dev e i = e i := fun i => by
    have : ∑ i, e i = 0 := by simp [e, Fin.sum_univ_succ]
    simp [dev, this]
  have d0 : ∀ i, dev (fun _ : Fin 8 => (0 : ℝ)) i = 0 := fun i => by simp [dev]
  refine c157_loading (e := e) (f := fun _ => 0) (by norm_num) (by norm_num) (by norm_num) ?_ ?_ ?_ ?_ ?_ ?_ ?_ ?_ ?_ ?_ ?_ ?_ ?_ ?_
  · simp only [kstat, dL]
    simp [L, Fin.sum_univ_succ]
    norm_num
  · have : ∀ i, (L i - mean L) * (e i - mean e) = L i * e i := fun i => by
      have h1 := dL i; have h2 := de i; unfold dev at h1 h2; unfold mean; rw [h1, h2]
    unfold cov
    simp only [this]
    simp [L, e, Fin.sum_univ_succ]
  · simp [cov, mean]
  · simp [cov, mean]
  · simp only [kstat, dL, de]
    simp [L, e, Fin.sum_univ_succ]
  · simp [kstat, d0]
  · simp only [kstat, dL, de]
    simp [L, e, Fin.sum_univ_succ, ht]
    norm_num
  all_goals simp [kstat, d0]

/-- A fair coin with the values 1 and -1 has the fourth cumulant -2. -/
example : let p : Bool → ℝ := fun _ => 1 / 2
    let u : Bool → ℝ := fun x => if x then 1 else -1
    (∑ ω : Fin 4 → Bool, (∏ i, p (ω i)) * kstat (fun i => u (ω i)) (fun i => u (ω i)) (fun i => u (ω i)) (fun i => u (ω i))) = -2 := by
  intro p u
  have := c157_unbiased (p := p) (by norm_num [p]) (n := 4) le_rfl u u u u
  rw [this]
  norm_num [p, u]

end Cdmir.OlcStat
