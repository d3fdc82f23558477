import Verif.Props.OlcFalse
import Verif.Props.Kci

/-! C79 and C80 for the test that `olc` uses. -/

set_option linter.unusedSectionVars false

namespace Cdmir.Olc

open KTest

variable {F : Type} [Zero F] [Sub F] [Mul F] [Div F] {m n : Nat}

/-- olc.py L12-13, L58-60, L74, L78: the parameters that are not left open here. `cal_pval` is the p-value of `KCI.test` on two columns; the
"residual" is the column minus the intercept of a regression, whatever that is; `normalize` subtracts the mean and divides by the standard
deviation; and a p-value that is NaN is not `>= alpha`. For a constant column `normalize` is NaN in the code and 0 here; it is not applied to
one, because the p-value of a constant column is NaN (`c82_nan`). -/
structure UsesKci (E : Env (Fin m → ℝ) F (Option ℝ)) (cdf : ℝ → ℝ → ℝ → ℝ) (alpha : ℝ) : Prop where
  pval : ∀ x y, E.pval x y = (kciTest cdf (col x) (col y)).1
  residual : ∀ x l, ∃ c, ∀ i, E.residual x l i = x i - c
  normalize : ∀ x i, E.normalize x i = (x i - mean x) / Real.sqrt (devs x / m)
  geAlpha : ∀ p, E.geAlpha p = true ↔ ∃ q, p = some q ∧ alpha ≤ q

theorem kci_affine (cdf : ℝ → ℝ → ℝ → ℝ) (x y : Fin m → ℝ) {a : ℝ} (ha : a ≠ 0) (b : ℝ) :
    kciTest cdf (col fun i => a * x i + b) (col y) = kciTest cdf (col x) (col y) := by
  have h := (c82_affine cdf 1 1 (col x) (col y) (a := fun _ => a) (fun _ => ha) (fun _ => b) (a' := fun _ => 1) (fun _ => one_ne_zero) (fun _ => 0)).1
  simp only [one_mul, add_zero] at h
  exact h

/-- The test that `olc` uses is one of the kind of `c79_false`. -/
theorem UsesKci.invariant {E : Env (Fin m → ℝ) F (Option ℝ)} {cdf : ℝ → ℝ → ℝ → ℝ} {alpha : ℝ} (h : UsesKci E cdf alpha) : E.Invariant where
  residual := by
    intro x l y
    obtain ⟨c, hc⟩ := h.residual x l
    have : E.residual x l = fun i => 1 * x i + -c := by
      funext i
      rw [hc]
      ring
    rw [h.pval, h.pval, this, kci_affine cdf x y one_ne_zero]
  normalize := by
    intro x y
    rw [h.pval, h.pval]
    by_cases hm : m = 0
    · subst hm
      congr 3
      funext i
      exact i.elim0
    by_cases hd : devs x = 0
    · have hx : ∀ i j, x i = x j := devs_eq_zero.1 hd
      have h1 : (kciTest cdf (col x) (col y)).1 = none :=
        (c82_nan cdf hm one_pos one_pos _ _).1.2 (Or.inl fun i j => by funext k; exact hx i j)
      have h2 : (kciTest cdf (col (E.normalize x)) (col y)).1 = none :=
        (c82_nan cdf hm one_pos one_pos _ _).1.2 (Or.inl fun i j => by
          funext k
          simp only [col, h.normalize, hx i j])
      rw [h1, h2]
    · have hm' : (0 : ℝ) < m := by exact_mod_cast Nat.pos_of_ne_zero hm
      have hs : 0 < Real.sqrt (devs x / m) := Real.sqrt_pos.2 (div_pos (lt_of_le_of_ne (devs_nonneg x) (Ne.symm hd)) hm')
      have : E.normalize x = fun i => (Real.sqrt (devs x / m))⁻¹ * x i + -(mean x / Real.sqrt (devs x / m)) := by
        funext i
        rw [h.normalize]
        ring
      rw [this, kci_affine cdf x y (inv_ne_zero hs.ne')]
  symm := by
    intro a b
    rw [h.pval, h.pval, (c82_symm cdf 1 1 (col a) (col b)).1]

/-- C79 and C80 fail for the test that the code uses: for all data, if the p-value of the kernel test of two columns is at least `alpha`, the result
of `olc` has an arrow from the one with the larger number to the one with the smaller number, and its coefficient is 0 divided by something. -/
theorem c79_kci {E : Env (Fin m → ℝ) F (Option ℝ)} {cdf : ℝ → ℝ → ℝ → ℝ} {alpha : ℝ} (h : UsesKci E cdf alpha) (hE : E.Right)
    {data : Nat → Fin m → ℝ} {fuel : Nat} {r : Result (Fin m → ℝ) F} (hr : olc E fuel n data = Except.ok r) {x y : Nat} (hxy : x < y) (hy : y < n)
    {p : ℝ} (hp : (kciTest cdf (col (data x)) (col (data y))).1 = some p) (ha : alpha ≤ p) : r.adjmat x y = 1 ∧ ∃ v, r.coef x y = 0 / v :=
  c79_false hE h.invariant hr hxy hy ((h.geAlpha _).2 ⟨p, by rw [h.pval]; exact hp, ha⟩)

open Classical in
/-- A complete set of parameters of this kind; the distribution function is 0, so that all p-values of columns that are not constant are 1. -/
noncomputable def exKci : Env (Fin 3 → ℝ) ℝ (Option ℝ) where
  residual := fun x _ i => x i - mean x
  normalize := fun x i => (x i - mean x) / Real.sqrt (devs x / (3 : Nat))
  pval := fun x y => (kciTest (fun _ _ _ => 0) (col x) (col y)).1
  fisher := fun l => l.headD none
  geAlpha := fun p => match p with | none => false | some p => decide ((1 / 20 : ℝ) ≤ p)
  geBeta := fun _ => false
  zeroP := none
  cov := fun _ _ _ => 1
  cov2 := fun _ _ => 1
  start := fun _ _ _ => 1
  svdLast := fun _ => none
  divLast := id
  comb := fun _ _ => fun _ => 0
  small := fun a => decide (a = 0)
  cliques := fun V _ => [V]
  order := fun l => l

theorem exKci_right : exKci.Right := by
  refine ⟨fun l _ => List.Perm.refl _, fun V u hV c hc => ?_⟩
  have : c = V := by simpa [exKci] using hc
  subst this
  exact ⟨hV, fun i hi => hi⟩

theorem exKci_uses : UsesKci exKci (fun _ _ _ => 0) (1 / 20) where
  pval := fun _ _ => rfl
  residual := fun x _ => ⟨mean x, fun _ => rfl⟩
  normalize := fun _ _ => rfl
  geAlpha := by
    intro p
    cases p with
    | none => simp [exKci]
    | some q => simp [exKci]

/-- Two columns of three rows. -/
def exCols : Nat → Fin 3 → ℝ := fun k => if k = 0 then ![0, 1, 3] else ![5, 2, 2]

example : ∃ r, olc exKci 2 2 exCols = Except.ok r ∧ r.adjmat 0 1 = 1 ∧ ∃ v, r.coef 0 1 = 0 / v := by
  obtain ⟨r, h⟩ := c78_small_partial (n := 2) exKci_right (by decide) (by decide) exCols (fuel := 2) (by decide)
  refine ⟨r, h, ?_⟩
  have hne : (kciTest (fun _ _ _ => 0) (col (exCols 0)) (col (exCols 1))).1 ≠ none := by
    rw [Ne, (c82_nan _ (by decide) one_pos one_pos _ _).1, not_or]
    constructor
    · intro h
      have := congrFun (h 0 1) 0
      norm_num [exCols, col] at this
    · intro h
      have := congrFun (h 0 1) 0
      norm_num [exCols, col] at this
  obtain ⟨p, hp⟩ := Option.ne_none_iff_exists'.1 hne
  refine c79_kci exKci_uses exKci_right h (by decide) (by decide) hp ?_
  simp only [kciTest, gammaPvalue] at hp
  split at hp
  · cases hp
  · cases hp
    norm_num

end Cdmir.Olc
