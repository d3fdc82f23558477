import Verif.Model.Olc
import Mathlib.Analysis.Real.Sqrt
import Mathlib.Algebra.BigOperators.Option

/-! One latent factor behind `n` columns, in terms of independent sources, and the routines of olc.py as they would answer from the true distribution. -/

namespace Cdmir.Olc
open BigOperators

/-- One factor and `n` columns: each column is a load times the factor plus noise of its own. `var` and `cum` are the variances and the fourth cumulants of
the sources; the source `none` is the factor, `some i` the noise of column `i`. -/
structure Factor (n : Nat) where
  load : Nat → ℝ
  var : Option (Fin n) → ℝ
  cum : Option (Fin n) → ℝ

variable {n : Nat}

/-- A column is given by the weights of the sources in it. -/
abbrev Form (n : Nat) := Option (Fin n) → ℝ

/-- The columns. -/
def Factor.column (M : Factor n) (i : Nat) : Form n
  | none => M.load i
  | some j => if j.val = i then 1 else 0

/-- The loads are not zero, the factor varies and its fourth cumulant is not zero, as it would be for a Gaussian factor. -/
structure Factor.Good (M : Factor n) : Prop where
  load : ∀ i, i < n → M.load i ≠ 0
  var : 0 < M.var none
  cum : M.cum none ≠ 0

/-- The covariance of two forms. -/
def Factor.cov (M : Factor n) (a b : Form n) : ℝ := ∑ s, M.var s * a s * b s

/-- The fourth cross cumulant of forms. -/
def Factor.cum4 (M : Factor n) (a b c d : Form n) : ℝ := ∑ s, M.cum s * a s * b s * c s * d s

/-- The routines answer as from the true distribution: a test accepts exactly if the two have no source in common (for sources that are not Gaussian this is
independence, by the theorem of Darmois and Skitovich); a shift is not seen, so that subtracting an intercept changes nothing; the last right singular vector has
length one and is in the kernel if there are fewer exogenous variables than columns; `EPS` is `eps`. -/
structure Ideal {P : Type} (M : Factor n) (eps : ℝ) (E : Env (Form n) ℝ P) : Prop where
  residual : ∀ x l, E.residual x l = x
  alpha : ∀ a b, E.geAlpha (E.pval a b) = true ↔ ∀ s, a s = 0 ∨ b s = 0
  beta : ∀ a b, E.geBeta (E.pval a b) = true ↔ ∀ s, a s = 0 ∨ b s = 0
  fisher : ∀ ps, ps ≠ [] → (∀ p ∈ ps, E.geAlpha p = false) → E.geAlpha (E.fisher ps) = false
  cov2 : ∀ a b, E.cov2 a b = M.cov a b
  start : ∀ c x e, E.start c x e = Real.sqrt |c * M.cum4 x e e e / M.cum4 x x e e|
  svd : ∀ (rows : List (List ℝ)) (k : Nat), rows ≠ [] → (∀ r ∈ rows, r.length = k) → ∃ ω : List ℝ, E.svdLast rows = some ω ∧ ω.length = rows.length ∧
    (ω.map fun w => w ^ 2).sum = 1 ∧ (k < rows.length → ∀ j, j < k → (List.zipWith (fun w r => w * r.getD j 0) ω rows).sum = 0)
  divLast : ∀ ω, E.divLast ω = ω.map fun w => w / ω.getLastD 0
  comb : ∀ ω cols s, E.comb ω cols s = (List.zipWith (fun w c => w * c s) ω cols).sum
  small : ∀ a, E.small a = true ↔ |a| < eps
  order : ∀ l : List Nat, l.Nodup → (E.order l).Perm l
  cliques : ∀ V u, (∀ c ∈ E.cliques V u, c.Nodup) ∧ ∀ x, (∃ c ∈ E.cliques V u, x ∈ c) ↔ x ∈ V

end Cdmir.Olc
