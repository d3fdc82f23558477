import Mathlib.Data.Matrix.Mul
import Mathlib.Data.Matrix.Diagonal
import Mathlib.Analysis.Real.Sqrt
import Verif.Spec.DSep

/-!
Specification vocabulary: the covariance matrix of a linear structural equation model over a directed graph, partial covariances and faithfulness.
-/

namespace Cdmir
namespace Spec
variable {V : Type} [Fintype V] [DecidableEq V]

/-- `C` is the covariance matrix of variables `X = B X + E` where `B v u` is not zero only for an edge from `u` to `v`, and the errors `E` are
uncorrelated with variances `d > 0`: the errors are `(1 - B) X`, so their covariance matrix is `(1 - B) C (1 - B)ᵀ`. -/
def LinearModel (R : V → V → Prop) (C : Matrix V V ℝ) : Prop :=
  ∃ (B : Matrix V V ℝ) (d : V → ℝ), (∀ v u, B v u ≠ 0 → R u v) ∧ (∀ v, 0 < d v) ∧
    (1 - B) * C * (1 - B).transpose = Matrix.diagonal d

/-- `c` holds the coefficients of the residual of `x` after regression on `Z`, for variables with covariances `C`: `x` itself with coefficient one
and members of `Z`, uncorrelated with every member of `Z`. -/
def Residual (C : Matrix V V ℝ) (x : V) (Z : V → Prop) (c : V → ℝ) : Prop :=
  c x = 1 ∧ (∀ v, c v ≠ 0 → v = x ∨ Z v) ∧ ∀ z, Z z → C.mulVec c z = 0

/-- The covariance of the variables with coefficients `a` and `b`. -/
def covar (C : Matrix V V ℝ) (a b : V → ℝ) : ℝ := ∑ u, ∑ v, a u * C u v * b v

/-- `x` and `y` are uncorrelated given `Z`: the residual of `x` after regression on `Z` is uncorrelated with `y`. -/
def PartialUncorr (C : Matrix V V ℝ) (x y : V) (Z : V → Prop) : Prop := ∃ c, Residual C x Z c ∧ C.mulVec c y = 0

/-- No conditional uncorrelatedness but those the graph implies. -/
def Faithful (R : V → V → Prop) (C : Matrix V V ℝ) : Prop :=
  ∀ (x y : V) (Z : V → Prop), x ≠ y → ¬ Z x → ¬ Z y → PartialUncorr C x y Z → DSep R x y Z

/-- The correlations of variables with covariances `C`. -/
noncomputable def corrOf (C : Matrix V V ℝ) : Matrix V V ℝ := Matrix.of fun i j => C i j / (Real.sqrt (C i i) * Real.sqrt (C j j))

end Spec
end Cdmir
