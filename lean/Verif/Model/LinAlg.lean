import Verif.Model.Py
import Mathlib.Analysis.Matrix.PosDef
import Mathlib.LinearAlgebra.Matrix.NonsingularInverse
import Mathlib.Data.Real.Basic

/-! Model of `pdinv` and `eigdec` (cdmir/utils/local_score/score_utils.py L50-L109; `pdinv` is also in
cdmir/discovery/score_based/greedy_equivalence_search.py L360-L373). Numbers are real numbers; a matrix with an entry that is not finite is `none`. What
numpy's routines return is a parameter. -/

namespace Cdmir.LinAlg

noncomputable section

variable {n : Nat}

/-- Square matrices. -/
abbrev Mat (n : Nat) := Matrix (Fin n) (Fin n) ℝ

/-- The symmetric matrix with the lower triangle of `A`: what `np.linalg.cholesky` factors, since it does not look above the diagonal. -/
def lowerSym (A : Mat n) : Mat n := Matrix.of fun i j => if j ≤ i then A i j else A j i

/-- What `np.linalg.cholesky` (`none`: `LinAlgError`) and `np.linalg.svd` (`u`, `s`, `vh`) return. -/
structure Factor (n : Nat) where
  chol : Mat n → Option (Mat n)
  svd : Mat n → Mat n × (Fin n → ℝ) × Mat n

/-- score_utils.py L50-L63: `pdinv`. Line L55 inverts a triangular matrix with a positive diagonal, which does not raise. A singular value of zero is
divided by, which gives no finite matrix. -/
def pdinv (F : Factor n) (A : Mat n) : Option (Mat n) :=
  match F.chol A with
  | some L =>
    let U := L.transpose
    let invU := 1 * U⁻¹
    some (invU * invU.transpose)
  | none =>
    let r := F.svd A
    open Classical in
    if ∃ i, r.2.1 i = 0 then none else some (r.2.2.transpose * Matrix.diagonal (fun i => 1 / r.2.1 i) * r.1.transpose)

/-- An eigenvalue with a vector. -/
abbrev Pair (n : Nat) := ℝ × (Fin n → ℝ)

/-- score_utils.py L66-L109: `eigdec` for an integer `N` and `evals_only=False`. `eig x` and `eigs x N` are the pairs that `np.linalg.eig` and
`scipy.sparse.linalg.eigs` return, `argsort` is `np.argsort`. The values are real (L107 drops imaginary parts). -/
def eigdec (eig : Mat n → List (Pair n)) (eigs : Mat n → Nat → List (Pair n)) (argsort : List ℝ → List Nat) (x : Mat n) (N : Nat) :
    Except Err (List ℝ × List (Fin n → ℝ)) :=
  if N < 1 ∨ n < N then .error .exception
  else
    let t := if (4 : ℝ) / 100 < (N : ℝ) / n then eig x else eigs x N
    let neg := t.map fun p => -p.1
    let perm := argsort neg
    let sorted := perm.map fun i => neg.getD i 0
    let evals := (sorted.take N).map fun v => -v
    open Classical in
    if evals = (t.take N).map Prod.fst then .ok (evals, (t.take N).map Prod.snd)
    else .ok (evals, (perm.take N).map fun i => (t.getD i (0, 0)).2)

end

end Cdmir.LinAlg
